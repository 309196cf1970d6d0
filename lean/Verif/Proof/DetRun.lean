import Verif.Proof.DetTree
import Verif.Proof.Hist
import Verif.Proof.Coll.Same
/-! Each call of the API has an effect that depends on the arguments' BDDs and the number of variables only: not on addresses, hash keys,
the order in which the compiler evaluates arguments or what else is in the manager. -/
namespace LBDD

theorem Reprs.fn {c : Nat → Cell} : ∀ {l : List Nat} {ts us : List Tree}, Reprs c l ts → Reprs c l us → ts = us
  | [], [], [], _, _ => rfl
  | _ :: _, _ :: _, _ :: _, h, h' => by rw [h.1.fn h'.1, Reprs.fn h.2 h'.2]
  | [], _ :: _, _, h, _ => h.elim
  | _ :: _, [], _, h, _ => h.elim
  | [], [], _ :: _, _, h => h.elim
  | _ :: _, _ :: _, [], _, h => h.elim

/-- Applied to BDDs `ts` in a manager with `n` variables, `f` returns the BDDs `out`, leaves `n' n` variables and adds the nodes `N`. -/
def Eff (u : Use) (f : Fn) (ts : List Tree) (out : List Tree) (n' : Nat → Nat) (N : Tree → Prop) : Prop :=
  ∀ (cfg : Cfg) (refs : Nat → Nat) (s : Mgr) (ps : List Nat), Inv cfg u.md refs s → Reprs s.cells ps ts →
    f.Pre cfg u s ps →
    Lib cfg u.md refs (f.run cfg ps) s (fun rs s' => Reprs s'.cells rs out ∧ s'.nvars = n' s.nvars ∧ Adds s s' N)

/-- The effect of `f` is determined by `ts`. -/
def FnDet (u : Use) (f : Fn) (ts : List Tree) : Prop := ∃ (out : List Tree) (n' : Nat → Nat) (N : Tree → Prop), Eff u f ts out n' N

/-- The call has no successful execution. -/
theorem FnDet.vac {u : Use} {f : Fn} {ts : List Tree}
    (h : ∀ (cfg : Cfg) (refs : Nat → Nat) (s : Mgr) (ps : List Nat), Inv cfg u.md refs s → Reprs s.cells ps ts →
      f.Pre cfg u s ps → ∀ rs s', f.run cfg ps s ≠ .ok rs s') : FnDet u f ts :=
  ⟨[], id, fun _ => False, fun cfg refs s ps hi hps hpre rs s' e => absurd e (h cfg refs s ps hi hps hpre rs s')⟩

theorem ub_ne {α : Type} {s : Mgr} : ∀ rs s', (M.ub : M Mgr α) s ≠ .ok rs s' := fun _ _ h => by cases h

theorem FnDet.nullary {u : Use} {f : Fn} {ts : List Tree} (hub : ∀ cfg ps, ps.length ≠ 0 → f.run cfg ps = M.ub)
    (h : ∃ (out : List Tree) (n' : Nat → Nat) (N : Tree → Prop), ∀ (cfg : Cfg) (refs : Nat → Nat) (s : Mgr), Inv cfg u.md refs s → f.Pre cfg u s [] →
      Lib cfg u.md refs (f.run cfg []) s (fun rs s' => Reprs s'.cells rs out ∧ s'.nvars = n' s.nvars ∧ Adds s s' N)) : FnDet u f ts := by
  by_cases hl : ts.length = 0
  · obtain ⟨out, n', N, h⟩ := h
    refine ⟨out, n', N, ?_⟩
    intro cfg refs s ps hi hps hpre
    have : ps = [] := List.eq_nil_of_length_eq_zero (hps.length.trans hl)
    subst this
    exact h cfg refs s hi hpre
  · refine .vac ?_
    intro cfg refs s ps hi hps hpre
    rw [hub cfg ps (by rw [hps.length]; exact hl)]
    exact ub_ne

theorem FnDet.unary {u : Use} {f : Fn} {ts : List Tree} (hub : ∀ cfg ps, ps.length ≠ 1 → f.run cfg ps = M.ub)
    (h : ∀ t, ∃ (out : List Tree) (n' : Nat → Nat) (N : Tree → Prop), ∀ (cfg : Cfg) (refs : Nat → Nat) (s : Mgr) (p : Nat), Inv cfg u.md refs s → Repr s.cells p t →
      f.Pre cfg u s [p] →
      Lib cfg u.md refs (f.run cfg [p]) s (fun rs s' => Reprs s'.cells rs out ∧ s'.nvars = n' s.nvars ∧ Adds s s' N)) : FnDet u f ts := by
  by_cases hl : ts.length = 1
  · match ts, hl with
    | [t], _ =>
      obtain ⟨out, n', N, h⟩ := h t
      refine ⟨out, n', N, ?_⟩
      intro cfg refs s ps hi hps hpre
      match ps, hps with
      | [p], hps => exact h cfg refs s p hi hps.1 hpre
  · refine .vac ?_
    intro cfg refs s ps hi hps hpre
    rw [hub cfg ps (by rw [hps.length]; exact hl)]
    exact ub_ne

theorem FnDet.binary {u : Use} {f : Fn} {ts : List Tree} (hub : ∀ cfg ps, ps.length ≠ 2 → f.run cfg ps = M.ub)
    (h : ∀ t t', ∃ (out : List Tree) (n' : Nat → Nat) (N : Tree → Prop), ∀ (cfg : Cfg) (refs : Nat → Nat) (s : Mgr) (p q : Nat), Inv cfg u.md refs s → Repr s.cells p t →
      Repr s.cells q t' → f.Pre cfg u s [p, q] →
      Lib cfg u.md refs (f.run cfg [p, q]) s (fun rs s' => Reprs s'.cells rs out ∧ s'.nvars = n' s.nvars ∧ Adds s s' N)) : FnDet u f ts := by
  by_cases hl : ts.length = 2
  · match ts, hl with
    | [t, t'], _ =>
      obtain ⟨out, n', N, h⟩ := h t t'
      refine ⟨out, n', N, ?_⟩
      intro cfg refs s ps hi hps hpre
      match ps, hps with
      | [p, q], hps => exact h cfg refs s p q hi hps.1 hps.2.1 hpre
  · refine .vac ?_
    intro cfg refs s ps hi hps hpre
    rw [hub cfg ps (by rw [hps.length]; exact hl)]
    exact ub_ne

theorem FnDet.ternary {u : Use} {f : Fn} {ts : List Tree} (hub : ∀ cfg ps, ps.length ≠ 3 → f.run cfg ps = M.ub)
    (h : ∀ t t' v, ∃ (out : List Tree) (n' : Nat → Nat) (N : Tree → Prop), ∀ (cfg : Cfg) (refs : Nat → Nat) (s : Mgr) (p q r : Nat), Inv cfg u.md refs s → Repr s.cells p t →
      Repr s.cells q t' → Repr s.cells r v → f.Pre cfg u s [p, q, r] →
      Lib cfg u.md refs (f.run cfg [p, q, r]) s (fun rs s' => Reprs s'.cells rs out ∧ s'.nvars = n' s.nvars ∧ Adds s s' N)) : FnDet u f ts := by
  by_cases hl : ts.length = 3
  · match ts, hl with
    | [t, t', v], _ =>
      obtain ⟨out, n', N, h⟩ := h t t' v
      refine ⟨out, n', N, ?_⟩
      intro cfg refs s ps hi hps hpre
      match ps, hps with
      | [p, q, r], hps => exact h cfg refs s p q r hi hps.1 hps.2.1 hps.2.2.1 hpre
  · refine .vac ?_
    intro cfg refs s ps hi hps hpre
    rw [hub cfg ps (by rw [hps.length]; exact hl)]
    exact ub_ne

section
variable {u : Use} {cfg : Cfg} {refs : Nat → Nat} {s : Mgr}

/-- A call that returns one handle. -/
theorem Lib.oneT {m : M Mgr Nat} {t : Tree} {n' : Nat} {N : Tree → Prop}
    (h : Lib cfg u.md refs m s (fun r s' => Repr s'.cells r t ∧ s'.nvars = n' ∧ Adds s s' N)) :
    Lib cfg u.md refs (m >>= fun r => Pure.pure [r]) s (fun rs s' => Reprs s'.cells rs [t] ∧ s'.nvars = n' ∧ Adds s s' N) := by
  intro rs s' e
  obtain ⟨r, s1, e1, e2⟩ := bind_ok_inv e
  obtain ⟨a, b, d, e⟩ := h r s1 e1
  cases e2
  exact ⟨a, b, ⟨d, trivial⟩, e⟩

/-- A call that returns no handle and changes nothing. -/
theorem Lib.noneT {α : Type} {m : M Mgr α} {a : α} (hi : Inv cfg u.md refs s) (e : m s = .ok a s) :
    Lib cfg u.md refs (m >>= fun _ => Pure.pure ([] : List Nat)) s (fun rs s' => Reprs s'.cells rs [] ∧ s'.nvars = s.nvars ∧ Adds s s' (fun _ => False)) := by
  intro rs s' e'
  rw [M.bind_ok e] at e'
  cases e'
  exact ⟨.refl _, hi, trivial, rfl, .refl⟩

theorem Lib.readT {m : M Mgr (List Nat)} {l : List Nat} {out : List Tree} (hi : Inv cfg u.md refs s) (e : m s = .ok l s) (h : Reprs s.cells l out) :
    Lib cfg u.md refs m s (fun rs s' => Reprs s'.cells rs out ∧ s'.nvars = s.nvars ∧ Adds s s' (fun _ => False)) := by
  intro rs s' e'
  rw [e] at e'
  cases e'
  exact ⟨.refl _, hi, h, rfl, .refl⟩

/-- From a specification that says which BDD is returned and that only its nodes are new. -/
theorem Lib.newT {m : M Mgr Nat} {t : Tree} {n' : Nat} (hi : Inv cfg u.md refs s)
    (h : Lib cfg u.md refs m s (fun r s' => Repr s'.cells r t ∧ s'.nvars = n' ∧ New s s' r)) :
    Lib cfg u.md refs (m >>= fun r => Pure.pure [r]) s (fun rs s' => Reprs s'.cells rs [t] ∧ s'.nvars = n' ∧ Adds s s' (fun w => t.Sub w)) := by
  refine Lib.oneT ?_
  intro r s1 e
  obtain ⟨a, b, d, f, g⟩ := h r s1 e
  exact ⟨a, b, d, f, g.adds hi b a.cells d⟩

end

/-- From the determinacy lemmas for the Boolean operations. -/
theorem DetL.lib {u : Use} {ι : Type} {H : (Nat → Cell) → ι → Prop} {m : Cfg → ι → M Mgr Nat} (h : DetL u.md H m IsTree) :
    ∃ t N, ∀ (cfg : Cfg) (refs : Nat → Nat) (s : Mgr) (i : ι), Inv cfg u.md refs s → H s.cells i →
      Lib cfg u.md refs (m cfg i >>= fun r => Pure.pure [r]) s (fun rs s' => Reprs s'.cells rs [t] ∧ s'.nvars = s.nvars ∧ Adds s s' N) := by
  obtain ⟨t, N, h⟩ := h
  exact ⟨t, N, fun cfg refs s i hi hh => Lib.oneT (h cfg refs s i hi hh)⟩

theorem FnDet.list {u : Use} {f : Fn} {ts : List Tree} {m : Cfg → List Nat → M Mgr Nat}
    (hrun : ∀ cfg ps, f.run cfg ps = (m cfg ps >>= fun r => Pure.pure [r]))
    (h : (∃ cfg s ps, f.Pre cfg u s ps) → DetL u.md (fun c l => Reprs c l ts) m IsTree) : FnDet u f ts := by
  by_cases hp : ∃ cfg s ps, f.Pre cfg u s ps
  · obtain ⟨t, N, h⟩ := (h hp).lib
    refine ⟨[t], id, N, ?_⟩
    intro cfg refs s ps hi hps _
    rw [hrun]
    exact h cfg refs s ps hi hps
  · exact .vac fun cfg refs s ps hi hps hpre => absurd ⟨cfg, s, ps, hpre⟩ hp

section
variable {u : Use} {cfg : Cfg} {refs : Nat → Nat} {c : Coll} {nr d0 d1 : Nat}

/-- The nodes `export_bdd` adds for the first `k` positions of an entry. -/
def ExpN (c : Coll) (d0 k : Nat) (u : Tree) : Prop := ∃ j t, j < k ∧ CRepr c.ins (d0 + j) t ∧ (redT t).Sub u

theorem exportLoop_adds (hw : c.Wf nr) (he : c.Entry nr d0 d1) (hord : u.md.ordered → c.Ordered nr) : ∀ (k : Nat) (h : List (Nat × Nat)) (s : Mgr),
    Inv cfg u.md refs s → d0 + k + 2 ≤ d1 → (∀ v, c.Var nr v → v < s.nvars) → ExpMap c d0 d1 s.cells k h →
    Spec cfg u.md refs (exportLoop cfg c d0 d1 k h) s (fun h' s' => ExpMap c d0 d1 s'.cells 0 h' ∧ Adds s s' (ExpN c d0 k))
  | 0, h, s, hi, _, _, hm => Spec.pure hi ⟨hm, Adds.refl.congr (fun u => by unfold ExpN; simp)⟩
  | k + 1, h, s, hi, hk, hv, hm => by
    have hr := hw.entry he
    obtain ⟨e, ha, a2, a3, a4, a5, a6, a7⟩ := hr.inner (d0 + k) (by omega) (by omega)
    have hin := Instr.inner_of_lt a2
    obtain ⟨p, tl, tl', e1, l1, l2, l3⟩ := exportRef_ok (cfg := cfg) hr hm (i := e.lo) (by omega) a5
    obtain ⟨q, th, th', e2, r1, r2, r3⟩ := exportRef_ok (cfg := cfg) hr hm (i := e.hi) (by omega) a7
    have ht : CRepr c.ins (d0 + k) (.node e.index tl th) := .node ha hin l1 r1
    unfold exportLoop
    refine Spec.read_bind (a := e) (by unfold insOf; rw [ha]) ?_
    refine Spec.assert_bind (by simp [Instr.isTerm, a3]) ?_
    refine Spec.read_bind e1 (Spec.read_bind e2 ?_)
    refine Spec.bind (mgrUniqueFind_ok hi (hv _ ⟨_, e, ⟨d0, d1, he, by omega, by omega, ha⟩, hin, rfl⟩) l2 r2 ?_) ?_
    · intro ho w hw'
      have hot := hw.tree_ordered he (hord ho) ht (by omega) (by omega)
      rcases hw' with h | h
      · exact hot.1 w (l3.mem w h)
      · exact hot.2.1 w (r3.mem w h)
    · rintro r s1 x1 hi1 ⟨hrr, hnew⟩
      have hnone : h.lookup (d0 + k) = none := by
        cases e : h.lookup (d0 + k) with
        | none => rfl
        | some r => have := hm.dom _ _ e; omega
      have hadd := hnew.adds hi hi1 x1.cells hrr
      rw [(l3.node r3).tree] at hadd
      refine Spec.assert_bind (by simp [hnone]) ?_
      refine (exportLoop_adds hw he hord k _ s1 hi1 (by omega) (by rw [x1.nvars]; exact hv) ((hm.ext x1.cells).insert ht hrr (l3.node r3))).mono ?_
      rintro h' s2 _ _ ⟨b1, b2⟩
      refine ⟨b1, (hadd.trans b2).congr ?_⟩
      intro u
      constructor
      · rintro (h | ⟨j, t, b3, b4, b5⟩)
        · exact ⟨k, _, by omega, ht, h⟩
        · exact ⟨j, t, by omega, b4, b5⟩
      · rintro ⟨j, t, b3, b4, b5⟩
        by_cases hj : j = k
        · subst hj
          rw [b4.unique ht] at b5
          exact Or.inl b5
        · exact Or.inr ⟨j, t, by omega, b4, b5⟩

theorem exportBdd_adds (hw : c.Wf nr) (he : c.Entry nr d0 d1) (hbig : d0 + 2 < d1) (hord : u.md.ordered → c.Ordered nr) {t : Tree} (ht : CRepr c.ins d0 t)
    {s : Mgr} (hi : Inv cfg u.md refs s) (hv : ∀ v, c.Var nr v → v < s.nvars) :
    Spec cfg u.md refs (exportBdd cfg c nr) s (fun r s' => Repr s'.cells r (redT t) ∧ Adds s s' (ExpN c d0 (d1 - 2 - d0))) := by
  have hr := hw.entry he
  unfold exportBdd
  refine Spec.assert_bind (by simpa using he.lt) ?_
  refine Spec.read_bind (a := d1) (by unfold dlmOf; rw [he.2]) ?_
  refine Spec.read_bind (a := d0) (by unfold dlmOf; rw [he.1]) ?_
  obtain ⟨a, b, ha, hb, h1, h2, _⟩ := hr.sinks
  refine Spec.assert_bind (by simp; omega) (Spec.assert_bind (by simp [ha, Instr.isTerm, h1]) (Spec.assert_bind (by simp [hb, Instr.isTerm, h2]) ?_))
  refine Spec.bind (exportLoop_adds hw he hord _ _ s hi (by omega) hv ⟨fun j h0 h1 => by omega, fun j r h => by simp at h⟩) ?_
  rintro h s1 _ hi1 ⟨hm, hadd⟩
  obtain ⟨r, t1, t', g1, g2, g3, g4⟩ := hm.ok d0 (by omega) (by omega)
  simp only [g1]
  refine Spec.pure hi1 ⟨?_, hadd⟩
  rw [← g2.unique ht, ← g4.tree]; exact g3

/-- The hash map of `bdd_mgr::add_bdd` maps to nodes with the trees `hT`. -/
def MapT (cells : Nat → Cell) (h : List (Nat × Nat)) (hT : Nat → Option Tree) : Prop :=
  ∀ j, match h.lookup j, hT j with
    | none, none => True
    | some r, some t => Repr cells r t
    | _, _ => False

theorem MapT.ext {cells cells' : Nat → Cell} {h : List (Nat × Nat)} {hT : Nat → Option Tree} (hm : MapT cells h hT) (hx : CellsExt cells cells') :
    MapT cells' h hT := by
  intro j
  have := hm j
  revert this
  cases h.lookup j <;> cases hT j <;> intro this
  · trivial
  · exact this
  · exact this
  · exact Repr.ext hx this

theorem MapT.insert {cells : Nat → Cell} {h : List (Nat × Nat)} {hT : Nat → Option Tree} (hm : MapT cells h hT) {k r : Nat} {t : Tree}
    (hr : Repr cells r t) : MapT cells (insertNew h k r) (fun j => (hT j).or (if j = k then some t else none)) := by
  intro j
  rw [insertNew_lookup]
  have := hm j
  revert this
  dsimp only
  cases h.lookup j <;> cases hT j <;> intro this
  · by_cases e : j = k
    · rw [if_pos e, if_pos e]; exact hr
    · rw [if_neg e, if_neg e]; trivial
  · exact this.elim
  · exact this.elim
  · exact this

theorem importLoop_det (om : OrMode u.md) (hw : c.Wf nr) (he : c.Entry nr d0 d1) (hv : ∀ v, c.Var nr v → v < topsinkIndex) : ∀ (k : Nat) (hT : Nat → Option Tree),
    d0 + k ≤ d1 → ∃ (hT' : Nat → Option Tree) (n' : Nat → Nat) (N : Tree → Prop), ∀ (cfg : Cfg) (refs : Nat → Nat) (s : Mgr) (h : List (Nat × Nat)), Inv cfg u.md refs s → MapT s.cells h hT →
      Lib cfg u.md refs (importLoop cfg c d0 k h) s (fun h' s' => MapT s'.cells h' hT' ∧ s'.nvars = n' s.nvars ∧ Adds s s' N) := by
  have hr := hw.entry he
  intro k
  induction k with
  | zero => intro hT _; exact ⟨hT, id, fun _ => False, fun cfg refs s h hi hm => Lib.pure hi ⟨hm, rfl, .refl⟩⟩
  | succ k ih =>
    intro hT hk
    obtain ⟨e, ha, hc⟩ := hr.cases (i := d0 + k) (by omega) (by omega)
    have hins : ∀ s : Mgr, insOf c (d0 + k) s = .ok e s := by intro s; unfold insOf; rw [ha]
    by_cases hb : e.isBot = true
    · obtain ⟨hT', n', N, hh⟩ := ih _ (by omega)
      refine ⟨hT', n', N, ?_⟩
      intro cfg refs s h hi hm
      unfold importLoop
      refine Lib.read_bind (hins s) ?_
      rw [if_pos hb]
      exact hh cfg refs s _ hi (hm.insert .bot)
    · by_cases ht : e.isTop = true
      · obtain ⟨hT', n', N, hh⟩ := ih _ (by omega)
        refine ⟨hT', n', N, ?_⟩
        intro cfg refs s h hi hm
        unfold importLoop
        refine Lib.read_bind (hins s) ?_
        rw [if_neg hb, if_pos ht]
        exact hh cfg refs s _ hi (hm.insert .top)
      · have hin : e.Inner := ⟨by simpa [Instr.isBot] using hb, by simpa [Instr.isTop] using ht⟩
        have bad : (hT e.lo = none ∨ hT e.hi = none) → ∀ (cfg : Cfg) (s : Mgr) (h : List (Nat × Nat)), MapT s.cells h hT →
            ∀ a s', importLoop cfg c d0 (k + 1) h s ≠ .ok a s' := by
          intro hno cfg s h hm a s' e'
          unfold importLoop at e'
          rw [M.bind_ok (hins s), if_neg hb, if_neg ht] at e'
          obtain ⟨_, s1, _, e'⟩ := bind_ok_inv e'
          have h1 := hm e.lo
          have h2 := hm e.hi
          cases g1 : h.lookup e.lo with
          | none =>
            rw [g1] at e'
            obtain ⟨_, _, _, e'⟩ := bind_ok_inv e'
            cases e'
          | some lo =>
            cases g2 : h.lookup e.hi with
            | none =>
              rw [g1, g2] at e'
              obtain ⟨_, _, _, e'⟩ := bind_ok_inv e'
              cases e'
            | some hi' =>
              rw [g1] at h1
              rw [g2] at h2
              rcases hno with hno | hno
              · rw [hno] at h1; exact h1
              · rw [hno] at h2; exact h2
        cases hl : hT e.lo with
        | none => exact ⟨hT, id, fun _ => False, fun cfg refs s h _ hm a s' e' => absurd e' (bad (Or.inl hl) cfg s h hm a s')⟩
        | some tl =>
          cases hh' : hT e.hi with
          | none => exact ⟨hT, id, fun _ => False, fun cfg refs s h _ hm a s' e' => absurd e' (bad (Or.inr hh') cfg s h hm a s')⟩
          | some th =>
            obtain ⟨hT', n', N, hh⟩ := ih (fun j => (hT j).or (if j = d0 + k then
              some (tIte (.node e.index .bot .top) th tl) else none)) (by omega)
            refine ⟨hT', fun n => n' (max n (e.index + 1)), fun w => (Tree.Sub (.node e.index .bot .top) w ∨ (tIte (.node e.index .bot .top) th tl).Sub w) ∨ N w, ?_⟩
            intro cfg refs s h hi hm
            unfold importLoop
            refine Lib.read_bind (hins s) ?_
            rw [if_neg hb, if_neg ht]
            refine Lib.assert_bind ?_
            have h1 := hm e.lo
            have h2 := hm e.hi
            rw [hl] at h1
            rw [hh'] at h2
            cases g1 : h.lookup e.lo with
            | none => rw [g1] at h1; exact h1.elim
            | some lo =>
              cases g2 : h.lookup e.hi with
              | none => rw [g2] at h2; exact h2.elim
              | some hi' =>
                rw [g1] at h1
                rw [g2] at h2
                show Lib cfg u.md refs (projection cfg e.index >>= fun v => iteOp cfg v hi' lo >>= fun r => importLoop cfg c d0 k (insertNew h (d0 + k) r)) s _
                refine Lib.bind (projection_ok hi (hv _ ⟨_, e, ⟨d0, d1, he, by omega, by omega, ha⟩, hin, rfl⟩)).lib ?_
                rintro v s1 g1 hi1 ⟨hrv, hnv, hnew1⟩
                refine Lib.bind (SpecB.libN (iteOp_okBT om.semIte True hi1 hrv (h2.ext g1.cells) (h1.ext g1.cells) (Or.inl trivial))) ?_
                rintro r s2 g2 hi2 ⟨⟨tr, hrr, _, _, htr, hnew2⟩, hn2⟩
                rw [om.irel] at htr
                have htr : tr = tIte (.node e.index .bot .top) th tl := htr
                subst htr
                refine (hh cfg refs s2 _ hi2 (((hm.ext g1.cells).ext g2.cells).insert hrr)).mono ?_
                rintro h3 s3 ⟨q1, q2, q3⟩
                exact ⟨q1, by rw [q2, hn2, hnv], ((hnew1.adds hi hi1 g1.cells hrv).trans (hnew2.adds hi1 hi2 g2.cells hrr)).trans q3⟩
end

theorem lowOf_sink {cfg : Cfg} {md : Md} {refs : Nat → Nat} {s : Mgr} (hi : Inv cfg md refs s) {p : Nat} (h : p < 2) {rs : List Nat} {s' : Mgr} :
    (lowOf p >>= fun r => Pure.pure [r]) s = .ok rs s' → False := by
  intro e
  obtain ⟨_, s1, e, _⟩ := bind_ok_inv e
  unfold lowOf at e
  rw [M.get_bind_apply] at e
  have : topsinkIndex ≤ (s.cells p).index := by
    have : p = 0 ∨ p = 1 := by omega
    rcases this with rfl | rfl
    · rw [hi.bot.1]; decide
    · rw [hi.top.1]; exact Nat.le_refl _
  simp only [this, decide_true, Bool.or_true, if_true] at e
  cases e

theorem highOf_sink {cfg : Cfg} {md : Md} {refs : Nat → Nat} {s : Mgr} (hi : Inv cfg md refs s) {p : Nat} (h : p < 2) {rs : List Nat} {s' : Mgr} :
    (highOf p >>= fun r => Pure.pure [r]) s = .ok rs s' → False := by
  intro e
  obtain ⟨_, s1, e, _⟩ := bind_ok_inv e
  unfold highOf at e
  rw [M.get_bind_apply] at e
  have : topsinkIndex ≤ (s.cells p).index := by
    have : p = 0 ∨ p = 1 := by omega
    rcases this with rfl | rfl
    · rw [hi.bot.1]; decide
    · rw [hi.top.1]; exact Nat.le_refl _
  simp only [this, decide_true, Bool.or_true, if_true] at e
  cases e

/-- `export_bdd` of an entry without inner nodes does not return. -/
theorem exportBdd_small {cfg : Cfg} {c : Coll} {nr d0 d1 : Nat} (he : c.Entry nr d0 d1) (hb : ¬ d0 + 2 < d1) {s s' : Mgr} {r : Nat} :
    exportBdd cfg c nr s = .ok r s' → False := by
  intro e
  unfold exportBdd at e
  obtain ⟨_, s1, e1, e⟩ := bind_ok_inv e
  obtain rfl : s = s1 := by
    unfold M.assert at e1
    split at e1
    · cases e1; rfl
    · cases e1
  rw [M.bind_ok (show dlmOf c (nr + 1) s = .ok d1 s by unfold dlmOf; rw [he.2]),
    M.bind_ok (show dlmOf c nr s = .ok d0 s by unfold dlmOf; rw [he.1])] at e
  have h0 : d1 - 2 - d0 = 0 := by omega
  rw [h0] at e
  obtain ⟨_, s1, e1, e⟩ := bind_ok_inv e
  obtain ⟨_, s2, e2, e⟩ := bind_ok_inv e
  obtain ⟨_, s3, e3, e⟩ := bind_ok_inv e
  obtain ⟨h, s4, e4, e⟩ := bind_ok_inv e
  cases e4
  obtain ⟨_, s5, e5, e⟩ := bind_ok_inv e
  cases e

/-- Exactly the calls of `and_rec` with a node limit. -/
def Fn.limited : Fn → Bool
  | .andLimited _ => true
  | _ => false

local macro "hub0" : tactic => `(tactic| (intro cfg ps h; match ps, h with
  | [], h => exact (h rfl).elim
  | _ :: _, _ => rfl))
local macro "hub1" : tactic => `(tactic| (intro cfg ps h; match ps, h with
  | [], _ => rfl
  | [_], h => exact (h rfl).elim
  | _ :: _ :: _, _ => rfl))
local macro "hub2" : tactic => `(tactic| (intro cfg ps h; match ps, h with
  | [], _ => rfl
  | [_], _ => rfl
  | [_, _], h => exact (h rfl).elim
  | _ :: _ :: _ :: _, _ => rfl))
local macro "hub3" : tactic => `(tactic| (intro cfg ps h; match ps, h with
  | [], _ => rfl
  | [_], _ => rfl
  | [_, _], _ => rfl
  | [_, _, _], h => exact (h rfl).elim
  | _ :: _ :: _ :: _ :: _, _ => rfl))

/-- The effect of every call other than the limited conjunction is determined by the BDDs of its arguments and the number of variables. -/
theorem Fn.run_det {u : Use} (hu : u ≠ .mixed) (f : Fn) (hf : f.limited = false) (ts : List Tree) : FnDet u f ts := by
  have om : u ≠ .parity → OrMode u.md := fun h => Use.orMode (by cases u <;> simp_all)
  have xm : u = .parity ∨ u = .mixed → XorMode u.md := by
    rintro (rfl | rfl)
    · exact Use.xorMode
    · exact absurd rfl hu
  cases f with
  | addVariable =>
    refine FnDet.nullary (by hub0) ⟨[], (· + 1), fun _ => False, ?_⟩
    intro cfg refs s hi hpre rs s' e
    obtain ⟨_, s1, e1, e2⟩ := bind_ok_inv e
    obtain ⟨a, b, _, d, f⟩ := (addVariable_ok hi hpre).lib _ _ e1
    cases e2
    refine ⟨a, b, trivial, by rw [d], ?_⟩
    intro u
    simp only [LiveT, f, or_false]
  | botsink =>
    exact FnDet.nullary (by hub0) ⟨[.bot], id, fun _ => False, fun cfg refs s hi _ => Lib.pure hi ⟨.one .bot, rfl, .refl⟩⟩
  | topsink =>
    exact FnDet.nullary (by hub0) ⟨[.top], id, fun _ => False, fun cfg refs s hi _ => Lib.pure hi ⟨.one .top, rfl, .refl⟩⟩
  | projection v =>
    refine FnDet.nullary (by hub0) ⟨[.node v .bot .top], fun n => max n (v + 1), fun w => Tree.Sub (.node v .bot .top) w, ?_⟩
    intro cfg refs s hi hpre
    exact Lib.newT hi (projection_ok hi hpre).lib
  | negProjection v =>
    refine FnDet.nullary (by hub0) ⟨[.node v .top .bot], id, fun w => Tree.Sub (.node v .top .bot) w, ?_⟩
    intro cfg refs s hi hpre
    exact Lib.newT hi ((negProjection_ok hi hpre).libN.mono fun r s' h => ⟨h.1.1, h.2, h.1.2⟩)
  | uniqueFind v =>
    refine FnDet.binary (by hub2) (fun tl th => ⟨[mkTree v tl th], id, fun w => (mkTree v tl th).Sub w, ?_⟩)
    intro cfg refs s l h hi hl hh hpre
    refine Lib.newT hi ((mgrUniqueFind_ok hi hpre.1 hl hh ?_).libN.mono fun r s' h => ⟨h.1.1, h.2, h.1.2⟩)
    intro ho w hw
    rcases hw with hw | hw
    · exact hpre.2 (Use.ordered_iff.1 ho) l (by simp) w ((occurs_iff hl w).2 hw)
    · exact hpre.2 (Use.ordered_iff.1 ho) h (by simp) w ((occurs_iff hh w).2 hw)
  | negate =>
    refine FnDet.unary (by hub1) (fun t => ?_)
    obtain ⟨r, N, h⟩ := (detL_neg t).lib
    refine ⟨[r], id, N, ?_⟩
    intro cfg refs s p hi hp _
    exact h cfg refs s p hi hp
  | and =>
    refine FnDet.binary (by hub2) (fun t t' => ?_)
    obtain ⟨r, N, h⟩ := (treeOp_and t t').lib
    refine ⟨[r], id, N, ?_⟩
    intro cfg refs s p q hi hp hq _
    exact h cfg refs s (p, q) hi ⟨hp, hq⟩
  | or =>
    by_cases hp : u = .parity
    · exact .vac fun cfg refs s ps _ _ hpre => absurd hp hpre
    refine FnDet.binary (by hub2) (fun t t' => ?_)
    obtain ⟨r, N, h⟩ := (treeOp_or (om hp) t t').lib
    refine ⟨[r], id, N, ?_⟩
    intro cfg refs s p q hi hp hq _
    exact h cfg refs s (p, q) hi ⟨hp, hq⟩
  | xor =>
    by_cases hp : u = .parity ∨ u = .mixed
    · refine FnDet.binary (by hub2) (fun t t' => ?_)
      obtain ⟨r, N, h⟩ := (treeOp_xor (xm hp) t t').lib
      refine ⟨[r], id, N, ?_⟩
      intro cfg refs s p q hi hp hq _
      exact h cfg refs s (p, q) hi ⟨hp, hq⟩
    · exact .vac fun cfg refs s ps _ _ hpre => absurd hpre hp
  | ite =>
    by_cases hp : u = .parity
    · exact .vac fun cfg refs s ps _ _ hpre => absurd hp hpre
    refine FnDet.ternary (by hub3) (fun tf tg th => ⟨[tIte tf tg th], id, fun w => (tIte tf tg th).Sub w, ?_⟩)
    intro cfg refs s f g h hi hf hg hh _
    refine Lib.newT hi ?_
    intro r s' e
    obtain ⟨a, b, ⟨tr, h1, _, _, h4, h5⟩, h6⟩ := SpecB.libN (iteOp_okBT (om hp).semIte True hi hf hg hh (Or.inl trivial)) r s' e
    rw [(om hp).irel] at h4
    exact ⟨a, b, h4 ▸ h1, h6, h5⟩
  | andRange => exact FnDet.list (fun _ _ => rfl) (fun _ => andRange_tree ts)
  | orRange => exact FnDet.list (fun _ _ => rfl) (fun ⟨_, _, _, h⟩ => orRange_tree (om h.2) ts)
  | xorRange => exact FnDet.list (fun _ _ => rfl) (fun ⟨_, _, _, h⟩ => xorRange_tree (xm h.2) ts)
  | andAll => exact FnDet.list (m := fun cfg l => variadic (andOp cfg) l) (fun _ _ => rfl) (fun _ => variadic_tree treeOp_and ts)
  | orAll => exact FnDet.list (m := fun cfg l => variadic (orOp cfg) l) (fun _ _ => rfl) (fun ⟨_, _, _, h⟩ => variadic_tree (treeOp_or (om h.2)) ts)
  | xorAll => exact FnDet.list (m := fun cfg l => variadic (xorOp cfg) l) (fun _ _ => rfl) (fun ⟨_, _, _, h⟩ => variadic_tree (treeOp_xor (xm h.2)) ts)
  | allFalse => exact FnDet.list (fun _ _ => rfl) (fun _ => allFalse_tree ts)
  | atMostOne => exact FnDet.list (fun _ _ => rfl) (fun ⟨_, _, _, h⟩ => atMostOne_tree (om h.2) ts)
  | atLeastOne => exact FnDet.list (fun _ _ => rfl) (fun _ => atLeastOne_tree ts)
  | simplex => exact FnDet.list (fun _ _ => rfl) (fun ⟨_, _, _, h⟩ => simplex_tree (om h.2) ts)
  | atLeast b => exact FnDet.list (fun _ _ => rfl) (fun ⟨_, _, _, h⟩ => atLeast_tree (om h.2) ts b)
  | atMost b => exact FnDet.list (fun _ _ => rfl) (fun ⟨_, _, _, h⟩ => atMost_tree (om h.2) ts b)
  | cardinality b => exact FnDet.list (fun _ _ => rfl) (fun ⟨_, _, _, h⟩ => cardinality_tree (om h.2) ts b)
  | rebaseMap m =>
    refine FnDet.unary (by hub1) (fun t => ⟨[renTree (fun v => (m.lookup v).getD 0) t], fun n => max n ((m.map (·.2)).foldl max 0 + 1),
      RenSubs (fun v => (m.lookup v).getD 0) t, ?_⟩)
    intro cfg refs s p hi hp hpre
    obtain ⟨h1, h2, h3, h4⟩ := hpre p (by simp)
    have hf : ∀ v, t.Mem v → m.lookup v = some ((m.lookup v).getD 0) := by
      intro v hv
      obtain ⟨w, hw⟩ := h2 v ((occurs_iff hp v).2 hv)
      rw [hw]; rfl
    refine Lib.oneT (rebaseMap_ok hi hp h1 hf h3 ?_).lib
    intro ho v w hv hw hvw
    exact h4 (Use.ordered_iff.1 ho) v w _ _ ((occurs_iff hp v).2 hv) ((occurs_iff hp w).2 hw) hvw (hf v hv) (hf w hw)
  | rebaseVec m =>
    refine FnDet.unary (by hub1) (fun t => ⟨[renTree (fun v => (m[v]?).getD 0) t], fun n => max n (m.foldl max 0 + 1),
      RenSubs (fun v => (m[v]?).getD 0) t, ?_⟩)
    intro cfg refs s p hi hp hpre
    obtain ⟨h1, hne, h2, h3, h4⟩ := hpre p (by simp)
    have hf : ∀ v, t.Mem v → m[v]? = some ((m[v]?).getD 0) := by
      intro v hv
      have := h2 v ((occurs_iff hp v).2 hv)
      rw [List.getElem?_eq_getElem this]; rfl
    refine Lib.oneT (rebaseVec_ok hi hp h1 hne hf h3 ?_).lib
    intro ho v w hv hw hvw
    exact h4 (Use.ordered_iff.1 ho) v w _ _ ((occurs_iff hp v).2 hv) ((occurs_iff hp w).2 hw) hvw (hf v hv) (hf w hw)
  | andLimited _ => cases hf
  | nrNodes =>
    refine FnDet.unary (by hub1) (fun t => ⟨[], id, fun _ => False, ?_⟩)
    intro cfg refs s p hi hp hpre
    obtain ⟨l, _, e⟩ := nrNodes_ok hi hp (.of hi (hpre p (by simp)))
    exact Lib.noneT hi e
  | nodesPostorder =>
    refine FnDet.unary (by hub1) (fun t => ⟨visT true t [], id, fun _ => False, ?_⟩)
    intro cfg refs s p hi hp hpre
    obtain ⟨l, e, h⟩ := nodesPostorder_det hi hp (.of hi (hpre p (by simp)))
    exact Lib.readT hi e h
  | nodesBfs =>
    refine FnDet.unary (by hub1) (fun t => ?_)
    by_cases hb : ∃ lT, BfsT t lT
    · obtain ⟨lT, hb⟩ := hb
      refine ⟨lT, id, fun _ => False, ?_⟩
      intro cfg refs s p hi hp hpre
      obtain ⟨l, lT', e, h1, h2⟩ := nodesBfs_det hi hp (hpre p (by simp))
      rw [h1.fn hb] at h2
      exact Lib.readT hi e h2
    · refine ⟨[], id, fun _ => False, ?_⟩
      intro cfg refs s p hi hp hpre
      obtain ⟨l, lT', e, h1, h2⟩ := nodesBfs_det hi hp (hpre p (by simp))
      exact absurd ⟨_, h1⟩ hb
  | variables =>
    refine FnDet.unary (by hub1) (fun t => ⟨[], id, fun _ => False, ?_⟩)
    intro cfg refs s p hi hp hpre
    obtain ⟨l, e, _⟩ := variables_ok hi hp
    exact Lib.noneT hi e
  | exactlyOneSolution =>
    refine FnDet.unary (by hub1) (fun t => ⟨[], id, fun _ => False, ?_⟩)
    intro cfg refs s p hi hp hpre
    obtain ⟨b, e⟩ := exactlyOneSolution_same hi hp
    exact Lib.noneT hi e
  | print =>
    refine FnDet.unary (by hub1) (fun t => ⟨[], id, fun _ => False, ?_⟩)
    intro cfg refs s p hi hp hpre
    obtain ⟨l, e, _⟩ := printArcs_ok hi hp
    exact Lib.noneT hi e
  | low =>
    refine FnDet.unary (by hub1) (fun t => ?_)
    match t with
    | .node v l h =>
      refine ⟨[l], id, fun _ => False, ?_⟩
      intro cfg refs s p hi hp _
      have h2 : 2 ≤ p := by cases hp with | node h => exact h
      obtain ⟨tl, th, et, _, _, a, _⟩ := hp.inv h2
      injection et with _ e1 _
      subst e1
      exact Lib.oneT (Lib.read hi (lowOf_ok hp h2) ⟨a, rfl, .refl⟩)
    | .bot => 
      refine ⟨[], id, fun _ => False, ?_⟩
      intro cfg refs s p hi hp _ rs s' e
      exfalso
      have hlt : p < 2 := by cases hp; omega
      exact lowOf_sink hi hlt e
    | .top =>
      refine ⟨[], id, fun _ => False, ?_⟩
      intro cfg refs s p hi hp _ rs s' e
      exfalso
      have hlt : p < 2 := by cases hp; omega
      exact lowOf_sink hi hlt e
  | high =>
    refine FnDet.unary (by hub1) (fun t => ?_)
    match t with
    | .node v l h =>
      refine ⟨[h], id, fun _ => False, ?_⟩
      intro cfg refs s p hi hp _
      have h2 : 2 ≤ p := by cases hp with | node h => exact h
      obtain ⟨tl, th, et, _, _, _, a⟩ := hp.inv h2
      injection et with _ _ e1
      subst e1
      exact Lib.oneT (Lib.read hi (highOf_ok hp h2) ⟨a, rfl, .refl⟩)
    | .bot =>
      refine ⟨[], id, fun _ => False, ?_⟩
      intro cfg refs s p hi hp _ rs s' e
      exfalso
      have hlt : p < 2 := by cases hp; omega
      exact highOf_sink hi hlt e
    | .top =>
      refine ⟨[], id, fun _ => False, ?_⟩
      intro cfg refs s p hi hp _ rs s' e
      exfalso
      have hlt : p < 2 := by cases hp; omega
      exact highOf_sink hi hlt e
  | refBotsink =>
    refine FnDet.unary (by hub1) (fun t => ⟨[.bot], id, fun _ => False, ?_⟩)
    intro cfg refs s p hi hp hpre
    obtain ⟨q, e, _⟩ := findBddMgr_ok hi hp
    exact Lib.read_bind e (Lib.pure hi ⟨.one .bot, rfl, .refl⟩)
  | refTopsink =>
    refine FnDet.unary (by hub1) (fun t => ⟨[.top], id, fun _ => False, ?_⟩)
    intro cfg refs s p hi hp hpre
    obtain ⟨q, e, _⟩ := findBddMgr_ok hi hp
    exact Lib.read_bind e (Lib.pure hi ⟨.one .top, rfl, .refl⟩)
  | exportBdd c nr =>
    refine FnDet.nullary (by hub0) ?_
    by_cases hw : c.Wf nr ∧ (u = .ordered → c.Ordered nr)
    · obtain ⟨hw, hord⟩ := hw
      obtain ⟨d0, d1, he, hr⟩ := id hw
      by_cases hb : d0 + 2 < d1
      · obtain ⟨t, ht⟩ := hw.tree he
        refine ⟨[redT t], id, ExpN c d0 (d1 - 2 - d0), ?_⟩
        intro cfg refs s hi hpre
        refine Lib.oneT ?_
        intro r s' e
        obtain ⟨a, b, ⟨h1, h2⟩, h3⟩ := (exportBdd_adds hw he hb (fun ho => hord (Use.ordered_iff.1 ho)) ht hi hpre.2.1).libN r s' e
        exact ⟨a, b, h1, h3, h2⟩
      · refine ⟨[], id, fun _ => False, ?_⟩
        intro cfg refs s hi hpre rs s' e
        exfalso
        obtain ⟨_, s1, e1, _⟩ := bind_ok_inv e
        exact exportBdd_small he hb e1
    · refine ⟨[], id, fun _ => False, ?_⟩
      intro cfg refs s hi hpre
      exact absurd ⟨hpre.1, hpre.2.2⟩ hw
  | importBdd c nr =>
    refine FnDet.nullary (by hub0) ?_
    by_cases hw : c.Wf nr ∧ (∀ v, c.Var nr v → v < topsinkIndex) ∧ u ≠ .parity
    · obtain ⟨hw, hv, hp⟩ := hw
      obtain ⟨d0, d1, he, hr⟩ := id hw
      have h2 := hr.two
      obtain ⟨hT, n', N, hh⟩ := importLoop_det (om hp) hw he hv (d1 - d0) (fun _ => none) (by omega)
      have pre : ∀ (cfg : Cfg) (refs : Nat → Nat) (s : Mgr) (P : Nat → Mgr → Prop), Inv cfg u.md refs s →
          (∀ h s1, Grow s s1 → Inv cfg u.md refs s1 → MapT s1.cells h hT → s1.nvars = n' s.nvars → Adds s s1 N → ∀ r, h.lookup d0 = some r → P r s1) →
          Lib cfg u.md refs (mgrAddBdd cfg c nr) s P := by
        intro cfg refs s P hi hP
        unfold mgrAddBdd
        refine Lib.assert_bind ?_
        refine Lib.read_bind (a := d0) (by unfold dlmOf; rw [he.1]) ?_
        refine Lib.read_bind (a := d1) (by unfold dlmOf; rw [he.2]) ?_
        refine Lib.bind (hh cfg refs s [] hi (fun j => by simp)) ?_
        rintro h s1 g1 hi1 ⟨a, b, d⟩
        split
        · rename_i r e1
          exact Lib.pure hi1 (hP h s1 g1 hi1 a b d r e1)
        · intro a s' e
          obtain ⟨_, _, _, e⟩ := bind_ok_inv e
          cases e
      cases ht : hT d0 with
      | none =>
        refine ⟨[], n', N, ?_⟩
        intro cfg refs s hi hpre
        refine Lib.bind (pre cfg refs s (fun _ _ => False) hi ?_) (fun _ _ _ _ h => h.elim)
        intro h s1 _ _ hm _ _ r hr
        have := hm d0
        rw [hr, ht] at this
        exact this
      | some t =>
        refine ⟨[t], n', N, ?_⟩
        intro cfg refs s hi hpre
        refine Lib.oneT (pre cfg refs s _ hi ?_)
        intro h s1 _ _ hm hn1 hadd r hr
        have := hm d0
        rw [hr, ht] at this
        exact ⟨this, hn1, hadd⟩
    · refine ⟨[], id, fun _ => False, ?_⟩
      intro cfg refs s hi hpre
      exact absurd hpre hw

end LBDD
