import Verif.Proof.GcSafe
/-! `collect_garbage` in states where no defect of the collector is triggered. -/
namespace LBDD
section
variable {cfg : Cfg} {md : Md} {refs : Nat → Nat}

/-- What the collector leaves alone in such states. -/
structure GcFrame (s s' : Mgr) : Prop where
  memo : s'.memo = s.memo
  rng : s'.rngPos = s.rngPos
  marks : s'.marks = s.marks
  tab : ∀ v, (s'.tabs v).mask = (s.tabs v).mask ∧ (s'.tabs v).cap = (s.tabs v).cap ∧ (s'.tabs v).timer = (s.tabs v).timer

theorem GcFrame.refl (s : Mgr) : GcFrame s s := ⟨rfl, rfl, rfl, fun _ => ⟨rfl, rfl, rfl⟩⟩
theorem GcFrame.trans {a b c : Mgr} (h1 : GcFrame a b) (h2 : GcFrame b c) : GcFrame a c :=
  ⟨h2.memo.trans h1.memo, h2.rng.trans h1.rng, h2.marks.trans h1.marks, fun v =>
    ⟨(h2.tab v).1.trans (h1.tab v).1, (h2.tab v).2.1.trans (h1.tab v).2.1, (h2.tab v).2.2.trans (h1.tab v).2.2⟩⟩

theorem dropState_frame (s : Mgr) (v k p : Nat) : GcFrame s (dropState s v k p) := by
  refine ⟨rfl, rfl, rfl, fun w => ?_⟩
  show (upd s.tabs v _ w).mask = _ ∧ (upd s.tabs v _ w).cap = _ ∧ (upd s.tabs v _ w).timer = _
  by_cases e : w = v
  · subst e; rw [upd_same]; exact ⟨rfl, rfl, rfl⟩
  · rw [upd_ne _ _ e]; exact ⟨rfl, rfl, rfl⟩

theorem upd_upd {α : Type} (f : Nat → α) (k : Nat) (a b : α) : upd (upd f k a) k b = upd f k b := by
  funext i; unfold upd; split <;> rfl

theorem Inv.ord_child {s : Mgr} (hi : Inv cfg md refs s) (ho : md.ordered) {p c : Nat} (h2 : 2 ≤ p) (hl : (s.cells p).live = true)
    (hc : c = (s.cells p).lo ∨ c = (s.cells p).hi) (c2 : 2 ≤ c) : (s.cells p).index < (s.cells c).index := by
  obtain ⟨_, _, t, ht⟩ := hi.node p h2 hl
  have hord := hi.ord ho _ _ ht
  obtain ⟨tl, th, rfl, _, _, h3, h4⟩ := ht.inv h2
  rcases hc with rfl | rfl
  · obtain ⟨_, _, e, _⟩ := h3.inv c2
    exact hord.1 _ (by rw [e]; exact Or.inl rfl)
  · obtain ⟨_, _, e, _⟩ := h4.inv c2
    exact hord.2.1 _ (by rw [e]; exact Or.inl rfl)

theorem rdInner_stop {v n j : Nat} {s : Mgr} (hc : j &&& (s.tabs v).mask < (s.tabs v).cap)
    (hn : (s.tabs v).slots (j &&& (s.tabs v).mask) = none) : rdInner v (n + 1) j s = .ok j s := by
  unfold rdInner
  rw [M.get_bind_apply, if_neg (by omega), hn]
  rfl

/-- Every live node with a variable below `v` is referenced. -/
def DoneBelow (s : Mgr) (v : Nat) : Prop := ∀ p, 2 ≤ p → (s.cells p).live = true → (s.cells p).index < v → 0 < (s.cells p).xref

theorem rdOuter_ok {v : Nat} : ∀ (n k : Nat) (s : Mgr), Inv cfg md refs s → SafeR cfg refs s → v < s.nvars → 1 ≤ n →
    (s.tabs v).mask + 2 ≤ n + k →
    (md.ordered → DoneBelow s v ∧ ∀ i p, i < k → i ≤ (s.tabs v).mask → (s.tabs v).slots i = some p → 0 < (s.cells p).xref) →
    ∃ s', rdOuter cfg v n k s = .ok () s' ∧ Inv cfg md refs s' ∧ SafeR cfg refs s' ∧ GcRun refs s s' ∧ GcFrame s s' ∧
      (md.ordered → DoneBelow s' (v + 1)) := by
  intro n
  induction n with
  | zero => intro k s _ _ _ h; omega
  | succ n ih =>
    intro k s hi hs hv _ hn hd
    have htab := hi.tab v hv
    have hcap := htab.cap
    by_cases hk : (s.tabs v).mask < k
    · refine ⟨s, ?_, hi, hs, .refl hi.heapOk, .refl _, ?_⟩
      · unfold rdOuter
        rw [M.get_bind_apply, if_pos hk]
        rfl
      · intro ho p h2 hl hx
        obtain ⟨d1, d2⟩ := hd ho
        by_cases e : (s.cells p).index < v
        · exact d1 p h2 hl e
        · obtain ⟨i, i1, i2⟩ := htab.slots.complete p ⟨h2, hl, by omega⟩
          exact d2 i p (by omega) (by omega) i2
    · unfold rdOuter
      rw [M.get_bind_apply, if_neg hk, if_neg (by omega)]
      cases hsl : (s.tabs v).slots k with
      | none =>
        dsimp only
        refine ih (k + 1) s hi hs hv (by omega) (by omega) (fun ho => ⟨(hd ho).1, fun i p h1 h2 h3 => ?_⟩)
        by_cases e : i = k
        · subst e; rw [hsl] at h3; cases h3
        · exact (hd ho).2 i p (by omega) h2 h3
      | some p =>
        dsimp only
        by_cases hx : (s.cells p).xref ≤ 0
        · rw [if_pos hx]
          obtain ⟨p2, hl, hidx⟩ := htab.slots.sound k p (by omega) hsl
          obtain ⟨hi1, hs1, g1, hnext⟩ := drop_ok hi hs hv (by omega) hsl hx
          obtain ⟨hp1, hp2, _⟩ := hi.node p p2 hl
          have hnv := hi.nv
          rw [M.bind_ok (freeNode_ok hi.heapOk hl hx (by omega) hp2)]
          have e2 : storeSlot v k none (freedState s p) = .ok () { freedState s p with tabs := upd s.tabs v { s.tabs v with slots := upd (s.tabs v).slots k none } } := rfl
          rw [M.bind_ok e2]
          have e3 : incFree v { freedState s p with tabs := upd s.tabs v { s.tabs v with slots := upd (s.tabs v).slots k none } } =
              .ok () (dropState s v k p) := by
            unfold incFree M.modify dropState
            simp only [upd_same, upd_upd]
          rw [M.bind_ok e3]
          have fr := dropState_frame s v k p
          obtain ⟨m1, m2, _⟩ := fr.tab v
          obtain ⟨kk, _, _, hpow⟩ := htab.pow
          have e4 : rdInner v (3 * ((s.tabs v).mask + 1) + 1) (k + 1) (dropState s v k p) = .ok (k + 1) (dropState s v k p) := by
            refine rdInner_stop ?_ ?_
            · rw [m1, m2, and_mask _ hpow]
              have : (k + 1) % ((s.tabs v).mask + 1) < (s.tabs v).mask + 1 := Nat.mod_lt _ (by omega)
              omega
            · rw [m1, and_mask _ hpow]
              show (upd s.tabs v _ v).slots _ = none
              rw [upd_same]
              show upd (s.tabs v).slots k none _ = none
              unfold upd
              split
              · rfl
              · exact hnext
          rw [M.bind_ok e4]
          have hne1 : ∀ q, 2 ≤ q → md.ordered → (s.cells q).index ≤ v → ((dropState s v k p).cells q).xref = (s.cells q).xref := by
            intro q q2 ho hq
            show (freedCells s.cells p q).xref = _
            rw [(freedCells_eq s.cells p q).2.2.2.2.2, if_neg, if_neg]
            · omega
            · intro e
              have := hi.ord_child ho p2 hl (Or.inr rfl) (e ▸ q2)
              rw [e] at this; omega
            · intro e
              have := hi.ord_child ho p2 hl (Or.inl rfl) (e ▸ q2)
              rw [e] at this; omega
          obtain ⟨s', e', i', sf', g', f', d'⟩ := ih (k + 1 + 1) (dropState s v k p) hi1 hs1 hv (by omega) (by rw [m1]; omega) (fun ho => by
            refine ⟨?_, ?_⟩
            · intro q q2 hql hq
              rw [(g1.frees.same q).2.2.1] at hq
              rw [hne1 q q2 ho (by omega)]
              exact (hd ho).1 q q2 (g1.frees.live q hql) hq
            · intro i q h1 h2 h3
              rw [m1] at h2
              change (upd s.tabs v _ v).slots i = some q at h3
              rw [upd_same] at h3
              change upd (s.tabs v).slots k none i = some q at h3
              by_cases ek : i = k
              · subst ek; rw [upd_same] at h3; cases h3
              · rw [upd_ne _ _ ek] at h3
                by_cases ek1 : i = k + 1
                · subst ek1
                  rw [Nat.mod_eq_of_lt (by omega), h3] at hnext
                  cases hnext
                · obtain ⟨q2, _, hqi⟩ := htab.slots.sound i q (by omega) h3
                  rw [hne1 q q2 ho (by omega)]
                  exact (hd ho).2 i q (by omega) h2 h3)
          exact ⟨s', e', i', sf', g1.trans g', fr.trans f', d'⟩
        · rw [if_neg hx]
          refine ih (k + 1) s hi hs hv (by omega) (by omega) (fun ho => ⟨(hd ho).1, fun i q h1 h2 h3 => ?_⟩)
          by_cases e : i = k
          · subst e; rw [hsl] at h3; cases h3; omega
          · exact (hd ho).2 i q (by omega) h2 h3

theorem shrinkTable_none {v : Nat} {s : Mgr} (ht : TabOk s.cells v (s.tabs v)) : shrinkTable cfg v s = .ok () s := by
  have hml := ht.mask_le
  unfold shrinkTable
  rw [M.get_bind_apply]
  rw [if_neg]
  · rfl
  · intro h
    simp only [Bool.and_eq_true, decide_eq_true_eq, sparse] at h
    have := ht.dense (by omega)
    rw [sub64_eq ht.free_le (by omega)] at h
    omega

theorem gcVars_ok : ∀ (n i : Nat) (s : Mgr), Inv cfg md refs s → SafeR cfg refs s → i + n = s.nvars → (md.ordered → DoneBelow s i) →
    ∃ s', gcVars cfg n i s = .ok () s' ∧ Inv cfg md refs s' ∧ SafeR cfg refs s' ∧ GcRun refs s s' ∧ GcFrame s s' ∧
      (md.ordered → DoneBelow s' s'.nvars) := by
  intro n
  induction n with
  | zero =>
    intro i s hi hs hn hd
    refine ⟨s, rfl, hi, hs, .refl hi.heapOk, .refl _, fun ho => ?_⟩
    rw [← hn]; exact hd ho
  | succ n ih =>
    intro i s hi hs hn hd
    obtain ⟨s1, e1, i1, sf1, g1, f1, d1⟩ := rdOuter_ok (v := i) ((s.tabs i).mask + 2) 0 s hi hs (by omega) (by omega) (by omega)
      (fun ho => ⟨hd ho, fun _ _ h => by omega⟩)
    have hnv := g1.frees.nvars
    obtain ⟨s2, e2, i2, sf2, g2, f2, d2⟩ := ih (i + 1) s1 i1 sf1 (by omega) d1
    refine ⟨s2, ?_, i2, sf2, g1.trans g2, f1.trans f2, d2⟩
    unfold gcVars
    have e3 : removeDeadNodes cfg i s = .ok () s1 := by
      unfold removeDeadNodes
      rw [M.get_bind_apply, M.bind_ok e1]
      exact shrinkTable_none (i1.tab i (by omega))
    rw [M.bind_ok e3]
    exact e2

/-- `purge` never removes an entry. -/
theorem purge_none {s : Mgr} (hi : Inv cfg md refs s) : purge s = .ok () s := by
  have : (fun k => if k < s.memo.size ∧ (s.memo.entries k).purgeable s.cells = true then { s.memo.entries k with r := none } else s.memo.entries k) =
      s.memo.entries := by
    funext k
    by_cases hk : k < s.memo.size ∧ (s.memo.entries k).purgeable s.cells = true
    · rw [if_pos hk]
      cases hr : (s.memo.entries k).r with
      | none =>
        generalize s.memo.entries k = e at *
        cases e
        cases hr
        rfl
      | some r =>
        exfalso
        obtain ⟨f, g, tf, tg, tr, e1, e2, r1, r2, r3, _⟩ := hi.memo.entry k hk.1 r hr
        have hp := hk.2
        unfold MemoEntry.purgeable at hp
        rw [hr, e1, e2] at hp
        have h1 := hi.xref_nonneg r1
        have h2 := hi.xref_nonneg r2
        have h3 := hi.xref_nonneg r3
        simp only [Option.getD_some, Bool.or_eq_true, Bool.and_eq_true, decide_eq_true_eq] at hp
        omega
    · rw [if_neg hk]
  exact congrArg (fun e => Res.ok () { s with memo := { s.memo with entries := e } }) this

/-- When every live node is referenced and the BDDs are ordered, every live node is reachable from a handle. -/
theorem kept_of_done {s : Mgr} (hi : Inv cfg md refs s) (ho : md.ordered) (hd : DoneBelow s s.nvars) {p : Nat}
    (hl : (s.cells p).live = true) : KeptR refs s p := by
  have aux : ∀ n p, (s.cells p).index = n → (s.cells p).live = true → KeptR refs s p := by
    intro n
    induction n using Nat.strongRecOn with
    | _ n ih =>
      intro p hn hl
      by_cases h2 : 2 ≤ p
      · have hx := hd p h2 hl (hi.node p h2 hl).1
        have hc := hi.ref.count p hl
        rw [if_neg (by omega)] at hc
        by_cases hr : 0 < refs p
        · exact Or.inr ⟨p, hr, .refl _⟩
        · obtain ⟨q, q2, _, ql, hq⟩ := arcsTo_pos_inv (c := s.cells) (p := p) (n := s.pool.hw) (by omega)
          have hlt := hi.ord_child ho (c := p) q2 ql (by rcases hq with h | h; exact Or.inl h.symm; exact Or.inr h.symm) h2
          rcases ih _ (by omega) q rfl ql with h | ⟨h, h3, h4⟩
          · omega
          · refine Or.inr ⟨h, h3, h4.trans ?_⟩
            rcases hq with e | e
            · exact .lo q2 ql (e ▸ .refl _)
            · exact .hi q2 ql (e ▸ .refl _)
      · exact Or.inl (by omega)
  exact aux _ p rfl hl

/-- `collect_garbage` where no defect of the collector is triggered. -/
theorem collectGarbage_ok {s : Mgr} (hi : Inv cfg md refs s) (hs : SafeR cfg refs s) :
    ∃ s', collectGarbage cfg s = .ok () s' ∧ Inv cfg md refs s' ∧ GcRun refs s s' ∧ GcFrame s s' ∧
      (md.ordered → ∀ p, (s'.cells p).live = true → KeptR refs s' p) := by
  obtain ⟨s', e, i', _, g', f', d'⟩ := gcVars_ok s.nvars 0 s hi hs (by omega) (fun _ p _ _ h => by omega)
  refine ⟨s', ?_, i', g', f', fun ho p hl => kept_of_done i' ho (d' ho) hl⟩
  unfold collectGarbage
  rw [M.get_bind_apply, M.bind_ok e]
  exact purge_none i'
end
end LBDD
