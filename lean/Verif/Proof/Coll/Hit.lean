import Verif.Proof.Coll.Added
/-! Exporting an entry whose nodes all exist already changes nothing. -/
namespace LBDD
section
variable {cfg : Cfg} {md : Md} {refs : Nat → Nat} {s : Mgr} {c c' : Coll} {nr nr' d0 d1 : Nat}

theorem SameEntry.reach (h : SameEntry c nr c' nr') (hw : c.Wf nr) {d0 d1 d0' i j : Nat} (he : c.Entry nr d0 d1) (he' : c'.del[nr']? = some d0')
    (hr : CReach c.ins i j) (h0 : d0 ≤ i) (h1 : i < d1) : CReach c'.ins (i - d0 + d0') (j - d0 + d0') := by
  have hwr := hw.entry he
  induction hr with
  | refl => exact .refl _
  | @lo i j e g1 g2 g3 ih =>
    have n := hwr.node h0 h1 g1 g2
    obtain ⟨a, b, e', b1, b2, b3, b4, b5, b6, b7⟩ := h.at ⟨d0, d1, he, h0, h1, g1⟩
    rw [he.1] at b1; cases b1
    rw [he'] at b2; cases b2
    obtain ⟨f1, f2, q1, _, _, q4⟩ := b4
    have hin' : e'.Inner := by unfold Instr.Inner at *; rw [b5]; exact g2
    refine .lo q4 hin' ?_
    rw [(b7 g2).2.2.1]
    exact ih (by omega) (by omega)
  | @hi i j e g1 g2 g3 ih =>
    have n := hwr.node h0 h1 g1 g2
    obtain ⟨a, b, e', b1, b2, b3, b4, b5, b6, b7⟩ := h.at ⟨d0, d1, he, h0, h1, g1⟩
    rw [he.1] at b1; cases b1
    rw [he'] at b2; cases b2
    obtain ⟨f1, f2, q1, _, _, q4⟩ := b4
    have hin' : e'.Inner := by unfold Instr.Inner at *; rw [b5]; exact g2
    refine .hi q4 hin' ?_
    rw [(b7 g2).2.2.2]
    exact ih (by omega) (by omega)

theorem SameEntry.connected (h : SameEntry c nr c' nr') (hw : c.Wf nr) (hc : c.Connected nr) : c'.Connected nr' := by
  intro d0' i e hd ha hin
  obtain ⟨a, b, e', b1, b2, b3, b4, b5, _⟩ := h.symm.at ha
  rw [hd] at b1; cases b1
  have hin' : e'.Inner := by unfold Instr.Inner at *; rw [b5]; exact hin
  have hr := hc b _ e' b2 b4 hin'
  obtain ⟨x, y, he, hwr⟩ := hw
  have : x = b := by have := he.1; rw [b2] at this; injection this with this; exact this.symm
  subst this
  have := h.reach ⟨x, y, he, hwr⟩ he hd hr (Nat.le_refl _) (by have := hwr.two; omega)
  have e1 : x - x + d0' = d0' := by omega
  have e2 : i - d0' + x - x + d0' = i := by omega
  rwa [e1, e2] at this

/-- What is below a represented node is represented. -/
theorem CReach.repr {cells : Nat → Cell} {ins : List Instr} {i j : Nat} (h : CReach ins i j) : ∀ {p : Nat} {t : Tree}, CRepr ins i t → Repr cells p t →
    ∃ q tq, CRepr ins j tq ∧ Repr cells q tq := by
  induction h with
  | refl => intro p t h1 h2; exact ⟨p, t, h1, h2⟩
  | lo g1 g2 _ ih =>
    intro p t h1 h2
    obtain ⟨tl, th, rfl, a, b⟩ := h1.inv g1 g2
    obtain ⟨_, _, _, _, h3, _⟩ := h2.of_node
    exact ih a h3
  | hi g1 g2 _ ih =>
    intro p t h1 h2
    obtain ⟨tl, th, rfl, a, b⟩ := h1.inv g1 g2
    obtain ⟨_, _, _, _, _, h4⟩ := h2.of_node
    exact ih b h4

theorem exportLoop_hit (hi : Inv cfg md refs s) (hw : c.Wf nr) (he : c.Entry nr d0 d1)
    (hall : ∀ i e, d0 ≤ i → i < d1 → c.ins[i]? = some e → e.Inner → ∃ q tq, CRepr c.ins i tq ∧ Repr s.cells q tq) : ∀ (k : Nat) (h : List (Nat × Nat)),
    d0 + k + 2 ≤ d1 → ExpMap c d0 d1 s.cells k h → ∃ h', exportLoop cfg c d0 d1 k h s = .ok h' s ∧ ExpMap c d0 d1 s.cells 0 h'
  | 0, h, _, hm => ⟨h, rfl, hm⟩
  | k + 1, h, hk, hm => by
    have hr := hw.entry he
    obtain ⟨e, ha, a2, a3, a4, a5, a6, a7⟩ := hr.inner (d0 + k) (by omega) (by omega)
    have hin := Instr.inner_of_lt a2
    obtain ⟨p, tl, tl', e1, l1, l2, l3⟩ := exportRef_ok (cfg := cfg) hr hm (i := e.lo) (by omega) a5
    obtain ⟨q, th, th', e2, r1, r2, r3⟩ := exportRef_ok (cfg := cfg) hr hm (i := e.hi) (by omega) a7
    obtain ⟨r, tr, b1, b2⟩ := hall (d0 + k) e (by omega) (by omega) ha hin
    have ht : CRepr c.ins (d0 + k) (.node e.index tl th) := .node ha hin l1 r1
    have := b1.unique ht
    subst this
    have hred := hi.reduced b2
    have : tl' = tl := l3.same hred.2.1
    subst this
    have : th' = th := r3.same hred.2.2
    subst this
    have hv : e.index < s.nvars := hi.mem_lt b2 (Or.inl rfl)
    obtain ⟨g1, g2, g3, g4, g5, g6⟩ := b2.of_node
    have x1 := hi.repr_inj g5 l2
    have x2 := hi.repr_inj g6 r2
    have hne : p ≠ q := by
      rintro rfl
      exact hred.1 (l2.fn r2)
    have huf : mgrUniqueFind cfg e.index p q s = .ok r s := by
      unfold mgrUniqueFind
      rw [M.get_bind_apply, M.assert_bind_apply (by simpa using hv)]
      exact uniqueFind_hit hi hv hne g1 g3 g2.symm x1 x2
    have hnone : h.lookup (d0 + k) = none := by
      cases e : h.lookup (d0 + k) with
      | none => rfl
      | some r => have := hm.dom _ _ e; omega
    have hm' : ExpMap c d0 d1 s.cells k (insertNew h (d0 + k) r) := hm.insert ht b2 ⟨fun _ => rfl, fun _ h => h, fun _ => rfl, (redT_reduced hred).symm⟩
    obtain ⟨h', f1, f2⟩ := exportLoop_hit hi hw he hall k _ (by omega) hm'
    refine ⟨h', ?_, f2⟩
    unfold exportLoop
    rw [M.bind_ok (show insOf c (d0 + k) s = .ok e s by unfold insOf; rw [ha]), M.assert_bind_apply (by simp [Instr.isTerm, a3]),
      M.bind_ok e1, M.bind_ok e2, M.bind_ok huf, M.assert_bind_apply (by simp [hnone])]
    exact f1

/-- Exporting an entry that unfolds to the same tree as the BDD `p` of the manager returns `p` and changes nothing. -/
theorem exportBdd_hit (hi : Inv cfg md refs s) (hw : c.Wf nr) (he : c.Entry nr d0 d1) (hbig : d0 + 2 < d1) (hcon : c.Connected nr) {p : Nat} {t : Tree}
    (ht : CRepr c.ins d0 t) (hp : Repr s.cells p t) : exportBdd cfg c nr s = .ok p s := by
  have hr := hw.entry he
  obtain ⟨h', e1, hm⟩ := exportLoop_hit (cfg := cfg) hi hw he (fun i e h0 h1 ha hin => (hcon d0 i e he.1 ⟨d0, d1, he, h0, h1, ha⟩ hin).repr ht hp)
    (d1 - 2 - d0) [] (by omega) ⟨fun j h0 h1 => by omega, fun j r h => by simp at h⟩
  obtain ⟨r, t1, t', g1, g2, g3, g4⟩ := hm.ok d0 (by omega) (by omega)
  have := g2.unique ht
  subst this
  have := g4.same (hi.reduced hp)
  subst this
  have hrp := hi.repr_inj g3 hp
  obtain ⟨a, b, ha, hb, h1, h2, _⟩ := hr.sinks
  unfold exportBdd
  rw [M.assert_bind_apply (by simpa using he.lt), M.bind_ok (show dlmOf c (nr + 1) s = .ok d1 s by unfold dlmOf; rw [he.2]),
    M.bind_ok (show dlmOf c nr s = .ok d0 s by unfold dlmOf; rw [he.1]), M.assert_bind_apply (by simp; omega),
    M.assert_bind_apply (by simp [ha, Instr.isTerm, h1]), M.assert_bind_apply (by simp [hb, Instr.isTerm, h2]), M.bind_ok e1]
  simp only [g1, hrp]; rfl
end
end LBDD
