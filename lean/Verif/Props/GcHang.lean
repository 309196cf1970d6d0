import Verif.Props.GcBad
import Verif.Props.GcShrink
import Verif.Proof.GcHang
/-!
# Collections with one node of garbage (C33): exactly when they return

`C33_refuted` shows one state from which `collect_garbage` never returns. Here: for every state with exactly one node that is no longer needed,
whether the collection returns, crashes or loops for ever, by the position of that node in its table.
-/
namespace LBDD
section
variable {cfg : Cfg} {u : Use} {a : Api}

theorem Crash.bind {σ α β : Type} {m : M σ α} {f : α → M σ β} {s : σ} (h : Crash cfg (m s)) : Crash cfg ((m >>= f) s) := by
  show Crash cfg (M.bind m f s)
  unfold M.bind
  revert h
  cases m s <;> simp [Crash]

/-- A node that is not needed and whose parents are all needed has reference count 0. -/
theorem unneeded_dead {md : Md} {refs : Nat → Nat} {s : Mgr} (hi : Inv cfg md refs s) {p : Nat} (h2 : 2 ≤ p) (hl : (s.cells p).live = true)
    (hn : ¬ KeptR refs s p) (hpar : ∀ q, 2 ≤ q → (s.cells q).live = true → (s.cells q).lo = p ∨ (s.cells q).hi = p → KeptR refs s q) :
    (s.cells p).xref ≤ 0 := by
  have hc := hi.ref.count p hl
  rw [if_neg (by omega)] at hc
  by_cases hr : 0 < refs p
  · exact absurd (Or.inr ⟨p, hr, .refl _⟩) hn
  · refine Classical.byContradiction fun hx => ?_
    obtain ⟨q, q2, _, ql, hq⟩ := arcsTo_pos_inv (c := s.cells) (p := p) (n := s.pool.hw) (by omega)
    rcases hpar q q2 ql hq with h | ⟨h, h3, h4⟩
    · omega
    · refine hn (Or.inr ⟨h, h3, h4.trans ?_⟩)
      rcases hq with e | e
      · exact .lo q2 ql (e ▸ .refl _)
      · exact .hi q2 ql (e ▸ .refl _)

/-- The loop over the variables passes tables without dead nodes. -/
theorem gcVars_skip {s : Mgr} {v : Nat} (ht : ∀ w, w < v → TabOk s.cells w (s.tabs w))
    (h : ∀ w, w < v → ∀ i p, i ≤ (s.tabs w).mask → (s.tabs w).slots i = some p → 0 < (s.cells p).xref) :
    ∀ m i n, i + m ≤ v → gcVars cfg (n + m) i s = gcVars cfg n (i + m) s := by
  intro m
  induction m with
  | zero => intros; rfl
  | succ m ih =>
    intro i n hm
    have hti := ht i (by omega)
    have e : removeDeadNodes cfg i s = .ok () s := by
      unfold removeDeadNodes
      rw [M.get_bind_apply, M.bind_ok (rdOuter_none hti.cap (h i (by omega)) _ 0 (by omega) (by omega))]
      exact shrinkTable_none hti
    rw [show n + (m + 1) = n + m + 1 from rfl]
    conv => lhs; unfold gcVars
    rw [M.bind_ok e, ih (i + 1) n (by omega), show i + 1 + m = i + (m + 1) by omega]

/-- The loop over the variables where no table has a dead node (nothing is assumed about the tables of other variables). -/
theorem gcVars_rest {s : Mgr} {v : Nat} (ht : ∀ w, v ≤ w → w < s.nvars → (s.tabs w).mask + 1 ≤ (s.tabs w).cap ∧ shrinkTable cfg w s = .ok () s)
    (h : ∀ w, v ≤ w → w < s.nvars → ∀ i p, i ≤ (s.tabs w).mask → (s.tabs w).slots i = some p → 0 < (s.cells p).xref) :
    ∀ n i, v ≤ i → i + n = s.nvars → gcVars cfg n i s = .ok () s := by
  intro n
  induction n with
  | zero => intros; rfl
  | succ n ih =>
    intro i hv hn
    obtain ⟨h1, h2⟩ := ht i hv (by omega)
    have e : removeDeadNodes cfg i s = .ok () s := by
      unfold removeDeadNodes
      rw [M.get_bind_apply, M.bind_ok (rdOuter_none h1 (h i hv (by omega)) _ 0 (by omega) (by omega))]
      exact h2
    unfold gcVars
    rw [M.bind_ok e]
    exact ih (i + 1) (by omega) (by omega)

/-- C33, refuted for a whole class of states. In ordered use let every node of a variable before `v`, and every node of `v` except `p`, be still
needed, `p` not. If the slot after that of `p` holds a node, and so does the slot after that one or the node in it is at home there, then
`collect_garbage` never returns - whatever garbage there is on the variables after `v`. -/
theorem C33_first_garbage_hangs (hR : Reachable cfg .ordered a) {v k p : Nat} (hv : v < a.mgr.nvars) (hk : k ≤ (a.mgr.tabs v).mask)
    (hp : (a.mgr.tabs v).slots k = some p) (hn : ¬ a.Kept p)
    (ho : ∀ q, 2 ≤ q → (a.mgr.cells q).live = true → (a.mgr.cells q).index ≤ v → q ≠ p → a.Kept q)
    (ht : a.mgr.TrapsAt v k) : step cfg .gc a = .hang := by
  have hi := hR.good
  have htab := hi.tab v hv
  obtain ⟨p2, hl, hidx⟩ := htab.slots.sound k p (by omega) hp
  have hx : (a.mgr.cells p).xref ≤ 0 := by
    refine unneeded_dead hi p2 hl (fun h => hn ((kept_iff a p).1 h)) (fun q q2 ql hq => (kept_iff a q).2 ?_)
    have hlt := hi.ord_child (Use.ordered_iff.2 rfl) (c := p) q2 ql (by rcases hq with h | h; exact Or.inl h.symm; exact Or.inr h.symm) p2
    exact ho q q2 ql (by omega) (by rintro rfl; omega)
  have hkeep : ∀ w, w ≤ v → ∀ i q, i ≤ (a.mgr.tabs w).mask → (w = v → i ≠ k) → (a.mgr.tabs w).slots i = some q →
      KeptR a.count a.mgr q ∧ (a.mgr.cells q).live = true := by
    intro w hw i q h1 h2 h3
    obtain ⟨q2, ql, qi⟩ := (hi.tab w (by omega)).slots.sound i q (by omega) h3
    refine ⟨(kept_iff a q).2 (ho q q2 ql (by omega) ?_), ql⟩
    rintro rfl
    have : w = v := by omega
    subst this
    exact h2 rfl (htab.slots.inj i k q (by omega) (by omega) h3 hp)
  have hhang := (remove_single (cfg := cfg) hi hv hk hp hx (fun i q h1 h2 h3 => (hkeep v (Nat.le_refl _) i q h1 (fun _ => h2) h3).1)).1 ht
  have hskip := gcVars_skip (cfg := cfg) (s := a.mgr) (v := v) (fun w hw => hi.tab w (by omega))
    (fun w hw i q h1 h2 => by
      obtain ⟨h3, h4⟩ := hkeep w (by omega) i q h1 (fun e => by omega) h2
      exact h3.pos hi.heapOk h4) v 0 (a.mgr.nvars - v - 1 + 1) (by omega)
  have e : gcVars cfg a.mgr.nvars 0 a.mgr = .hang := by
    rw [show a.mgr.nvars - v - 1 + 1 + v = a.mgr.nvars by omega] at hskip
    rw [hskip, Nat.zero_add]
    unfold gcVars
    exact M.bind_hang hhang
  have e2 : collectGarbage cfg a.mgr = .hang := by
    unfold collectGarbage
    rw [M.get_bind_apply]
    exact M.bind_hang e
  show onMgr (collectGarbage cfg) a = _
  unfold onMgr
  rw [e2]

/-- C32, C33, C35 with exactly one node `p` of garbage, in slot `k` of the table of variable `v` (any discipline): the collection loops for ever,
crashes, or returns with exactly the nodes in use that are reachable from handles, depending only on the two slots after that of `p`, on the home
of the node in the first of them, and on how full the table is. -/
theorem C33_single_garbage (hR : Reachable cfg u a) {v k p : Nat} (hv : v < a.mgr.nvars) (hk : k ≤ (a.mgr.tabs v).mask)
    (hp : (a.mgr.tabs v).slots k = some p) (hn : ¬ a.Kept p) (ho : ∀ q, (a.mgr.cells q).live = true → q ≠ p → a.Kept q) :
    (a.mgr.TrapsAt v k → step cfg .gc a = .hang) ∧
    (¬ a.mgr.TrapsAt v k → a.mgr.SparseAfter v → Crash cfg (step cfg .gc a)) ∧
    (¬ a.mgr.TrapsAt v k → ¬ a.mgr.SparseAfter v → ∃ a', step cfg .gc a = .ok () a' ∧ a'.hs = a.hs ∧
      (∀ q, (a'.mgr.cells q).live = true ↔ a.Kept q) ∧ a'.mgr.pool.total + 1 = a.mgr.pool.total) := by
  have hi := hR.good
  have htab := hi.tab v hv
  obtain ⟨p2, hl, hidx⟩ := htab.slots.sound k p (by omega) hp
  have hx : (a.mgr.cells p).xref ≤ 0 := by
    refine unneeded_dead hi p2 hl (fun h => hn ((kept_iff a p).1 h)) (fun q q2 ql hq => (kept_iff a q).2 (ho q ql ?_))
    rintro rfl
    obtain ⟨_, _, t, ht⟩ := hi.node q q2 ql
    exact ht.acyclic q2 (q := q) (hq.imp Eq.symm Eq.symm) (.refl _)
  have hkeep : ∀ w, w < a.mgr.nvars → ∀ i q, i ≤ (a.mgr.tabs w).mask → (w = v → i ≠ k) → (a.mgr.tabs w).slots i = some q →
      KeptR a.count a.mgr q ∧ (a.mgr.cells q).live = true ∧ q ≠ p := by
    intro w hw i q h1 h2 h3
    obtain ⟨q2, ql, qi⟩ := (hi.tab w (by omega)).slots.sound i q (by omega) h3
    have hne : q ≠ p := by
      rintro rfl
      have : w = v := by omega
      subst this
      exact h2 rfl (htab.slots.inj i k q (by omega) (by omega) h3 hp)
    exact ⟨(kept_iff a q).2 (ho q ql hne), ql, hne⟩
  obtain ⟨r1, r2⟩ := remove_single (cfg := cfg) hi hv hk hp hx (fun i q h1 h2 h3 => (hkeep v hv i q h1 (fun _ => h2) h3).1)
  have hskip := gcVars_skip (cfg := cfg) (s := a.mgr) (v := v) (fun w hw => hi.tab w (by omega))
    (fun w hw i q h1 h2 => by
      obtain ⟨h3, h4, _⟩ := hkeep w (by omega) i q h1 (fun e => by omega) h2
      exact h3.pos hi.heapOk h4) v 0 (a.mgr.nvars - v - 1 + 1) (by omega)
  rw [show a.mgr.nvars - v - 1 + 1 + v = a.mgr.nvars by omega, Nat.zero_add] at hskip
  have hml := htab.mask_le
  have hfl := htab.free_le
  obtain ⟨kk, hk6, hk19, hpow⟩ := htab.pow
  have hfree : (a.mgr.tabs v).free < (a.mgr.tabs v).mask + 1 := by
    have := countFree_remove (sl := (a.mgr.tabs v).slots) (n := (a.mgr.tabs v).mask + 1) (i := k) (by omega) hp
    have h2 := countFree_le (upd (a.mgr.tabs v).slots k none) ((a.mgr.tabs v).mask + 1)
    have := htab.free
    omega
  refine ⟨fun ht => ?_, fun hnt hsp => ?_, fun hnt hsp => ?_⟩
  · have e2 : collectGarbage cfg a.mgr = .hang := by
      unfold collectGarbage
      rw [M.get_bind_apply]
      refine M.bind_hang (hskip.trans ?_)
      unfold gcVars
      exact M.bind_hang (r1 ht)
    show onMgr (collectGarbage cfg) a = _
    unfold onMgr
    rw [e2]
  · obtain ⟨s', e, _, _, _, _, m1, m2, m3⟩ := r2 hnt
    obtain ⟨hs1, hs2⟩ := hsp
    have h128 : 128 ∣ (a.mgr.tabs v).mask + 1 := by
      rw [hpow]
      have : 7 ≤ kk := by
        rcases Nat.lt_or_ge kk 7 with h | h
        · have : kk = 6 := by omega
          subst this; omega
        · exact h
      exact ⟨2 ^ (kk - 7), by rw [show (128 : Nat) = 2 ^ 7 by rfl, ← Nat.pow_add]; congr 1; omega⟩
    have hle : (a.mgr.tabs v).mask + 1 ≤ 2 ^ 19 := by rw [hpow]; exact Nat.pow_le_pow_right (by omega) hk19
    have hcr := C35_shrink_crashes (cfg := cfg) (s := s') (v := v) (by rw [m1]; omega) (by rw [m1]; omega) (by rw [m1]; omega) (by rw [m1, m3]; omega)
      (by rw [m1, m3]; omega)
    have key : Crash cfg (removeDeadNodes cfg v a.mgr) := by
      unfold removeDeadNodes
      rw [M.get_bind_apply, M.bind_ok e]
      exact hcr
    have h2 : Crash cfg (gcVars cfg a.mgr.nvars 0 a.mgr) := by
      rw [hskip]
      unfold gcVars
      exact key.bind
    have h3 : Crash cfg (collectGarbage cfg a.mgr) := by
      unfold collectGarbage
      rw [M.get_bind_apply]
      exact h2.bind
    show Crash cfg (onMgr (collectGarbage cfg) a)
    unfold onMgr
    revert h3
    cases collectGarbage cfg a.mgr <;> simp [Crash]
  · obtain ⟨s', e, c1, n1, p1, t1, m1, m2, m3⟩ := r2 hnt
    have fr := dropState_freed (refs := a.count) (v := v) (k := k) hi.heapOk hl hx
    have hsh : shrinkTable cfg v s' = .ok () s' := by
      unfold shrinkTable
      rw [M.get_bind_apply, if_neg]
      · rfl
      · intro h
        simp only [Bool.and_eq_true, decide_eq_true_eq, sparse, m1, m3] at h
        rw [sub64_eq (by omega) (by omega)] at h
        exact hsp ⟨h.1, by omega⟩
    have hrem : removeDeadNodes cfg v a.mgr = .ok () s' := by
      unfold removeDeadNodes
      rw [M.get_bind_apply, M.bind_ok e]
      exact hsh
    have hrest : gcVars cfg (a.mgr.nvars - v - 1) (v + 1) s' = .ok () s' := by
      refine gcVars_rest (v := v + 1) ?_ ?_ _ _ (Nat.le_refl _) (by rw [n1]; omega)
      · intro w hw hw2
        rw [n1] at hw2
        have htw := hi.tab w hw2
        have ew := t1 w (by omega)
        refine ⟨by rw [ew]; exact htw.cap, ?_⟩
        have hmw := htw.mask_le
        unfold shrinkTable
        rw [M.get_bind_apply, if_neg]
        · rfl
        · intro h
          simp only [Bool.and_eq_true, decide_eq_true_eq, sparse, ew] at h
          have := htw.dense (by omega)
          rw [sub64_eq htw.free_le (by omega)] at h
          omega
      · intro w hw hw2 i q hiw hq
        rw [n1] at hw2
        rw [t1 w (by omega)] at hiw hq
        obtain ⟨k1, k2, k3⟩ := hkeep w hw2 i q hiw (fun e => by omega) hq
        rw [c1]
        exact (k1.mono fr.run).pos fr.run.ok ((fr.live q).2 ⟨k2, k3⟩)
    have hall : gcVars cfg a.mgr.nvars 0 a.mgr = .ok () s' := by
      rw [hskip]
      unfold gcVars
      rw [M.bind_ok hrem]
      exact hrest
    obtain ⟨s2, e2, c2, p2'⟩ : ∃ s2, purge s' = .ok () s2 ∧ s2.cells = s'.cells ∧ s2.pool = s'.pool := ⟨_, rfl, rfl, rfl⟩
    refine ⟨{ a with mgr := s2 }, ?_, rfl, ?_, ?_⟩
    · have : collectGarbage cfg a.mgr = .ok () s2 := by
        unfold collectGarbage
        rw [M.get_bind_apply, M.bind_ok hall]
        exact e2
      show onMgr (collectGarbage cfg) a = _
      unfold onMgr
      rw [this]
    · intro q
      show (s2.cells q).live = true ↔ _
      rw [c2, c1, fr.live]
      constructor
      · rintro ⟨h1, h2⟩; exact ho q h1 h2
      · intro h; exact ⟨hR.good.kept_live h, by rintro rfl; exact hn h⟩
    · show s2.pool.total + 1 = _
      rw [p2', p1]
      show a.mgr.pool.total - 1 + 1 = a.mgr.pool.total
      have h1 := hi.pool.total
      have hpl := (hi.pool.live p).1 hl
      have hle : a.mgr.pool.avail.length + 1 ≤ a.mgr.pool.hw := by
        have hnn : (p :: a.mgr.pool.avail).Nodup := List.nodup_cons.2 ⟨hpl.2, hi.pool.nodup⟩
        have := stored_le (sl := fun i => some i) a.mgr.pool.hw _ hnn (fun q hq => by
          rcases List.mem_cons.1 hq with rfl | hq
          · exact ⟨_, hpl.1, rfl⟩
          · exact ⟨_, (hi.pool.avail q hq).2, rfl⟩)
        simp only [List.length_cons] at this
        omega
      omega
end

/-! ## Concrete states of all kinds -/

theorem not_kept {u : Use} {cfg : Cfg} {a : Api} (hR : Reachable cfg u a) {p : Nat} (hl : (a.mgr.cells p).live = true)
    (hx : (a.mgr.cells p).xref ≤ 0) : ¬ a.Kept p := by
  intro h
  have := ((kept_iff a p).2 h).pos hR.good.heapOk hl
  omega

/-- A sufficient check for "every node in use except `p` is reachable from a handle". -/
theorem others_kept {u : Use} {cfg : Cfg} {a : Api} (hR : Reachable cfg u a) {p : Nat}
    (h : (List.range a.mgr.pool.hw).all (fun q => q == p || keptB a q) = true) : ∀ q, (a.mgr.cells q).live = true → q ≠ p → a.Kept q := by
  intro q hl hne
  have := (List.all_eq_true.1 h) q (List.mem_range.2 ((hR.good.pool.live q).1 hl).1)
  simp only [Bool.or_eq_true, beq_iff_eq] at this
  exact keptB_sound (this.resolve_left hne)

/-- `loopState` of `C33_refuted` meets the hypotheses of `C33_first_garbage_hangs` and of `C33_single_garbage`: ¬x0 (node 3) is the garbage, in
slot 1; x0 (node 2) is at home in slot 2. -/
theorem C33_hang_example : ∀ nd, Reachable (gcEnv nd 0 1) .ordered (loopState nd) ∧ 0 < (loopState nd).mgr.nvars ∧
    1 ≤ ((loopState nd).mgr.tabs 0).mask ∧ ((loopState nd).mgr.tabs 0).slots 1 = some 3 ∧ ¬ (loopState nd).Kept 3 ∧
    (∀ q, ((loopState nd).mgr.cells q).live = true → q ≠ 3 → (loopState nd).Kept q) ∧ (loopState nd).mgr.TrapsAt 0 1 := by
  intro nd
  have hR : Reachable (gcEnv nd 0 1) .ordered (loopState nd) := stateAfter_reachable _ _ _
  refine ⟨hR, ?_, ?_, ?_, not_kept hR ?_ ?_, others_kept hR ?_, 2, ?_, Or.inr ?_⟩ <;> (cases nd <;> decide +kernel)

/-- x0 and ¬x0 have the same home slot 0; x0, in slot 0, is garbage, ¬x0 was moved on to slot 1. -/
def movedState (nd : Bool) : Api :=
  stateAfter (gcEnv nd 0 0) .ordered [.call (.projection 0) [], .call (.negProjection 0) [], .drop 0]

theorem trapsB {s : Mgr} {v k q : Nat} (h1 : (s.tabs v).slots ((k + 1) % ((s.tabs v).mask + 1)) = some q)
    (h2 : (s.tabs v).slots ((k + 2) % ((s.tabs v).mask + 1)) = none)
    (h3 : hashCode s.cells (s.cells q).lo (s.cells q).hi % ((s.tabs v).mask + 1) ≠ (k + 1) % ((s.tabs v).mask + 1)) : ¬ s.TrapsAt v k := by
  rintro ⟨r, r1, r2⟩
  rw [h1] at r1
  cases r1
  rcases r2 with r2 | r2
  · exact r2 h2
  · exact h3 r2

/-- In `movedState` the node of garbage is followed by another node (so that `GcSafe` does not hold), yet the collection returns. -/
theorem C33_return_example : ∀ nd, Reachable (gcEnv nd 0 0) .ordered (movedState nd) ∧ 0 < (movedState nd).mgr.nvars ∧
    ((movedState nd).mgr.tabs 0).slots 0 = some 2 ∧ ¬ (movedState nd).Kept 2 ∧ ((movedState nd).mgr.tabs 0).slots 1 = some 3 ∧
    (∀ q, ((movedState nd).mgr.cells q).live = true → q ≠ 2 → (movedState nd).Kept q) ∧ ¬ (movedState nd).mgr.TrapsAt 0 0 ∧
    ¬ (movedState nd).mgr.SparseAfter 0 ∧ ¬ GcSafe (gcEnv nd 0 0) (movedState nd) := by
  intro nd
  have hR : Reachable (gcEnv nd 0 0) .ordered (movedState nd) := stateAfter_reachable _ _ _
  have hv : 0 < (movedState nd).mgr.nvars := by cases nd <;> decide +kernel
  have h0 : ((movedState nd).mgr.tabs 0).slots 0 = some 2 := by cases nd <;> decide +kernel
  have h1 : ((movedState nd).mgr.tabs 0).slots 1 = some 3 := by cases nd <;> decide +kernel
  have hm : ((movedState nd).mgr.tabs 0).mask = 63 := by cases nd <;> decide +kernel
  have hk : ¬ (movedState nd).Kept 2 := not_kept hR (by cases nd <;> decide +kernel) (by cases nd <;> decide +kernel)
  refine ⟨hR, hv, h0, hk, h1, others_kept hR ?_, trapsB (q := 3) ?_ ?_ ?_, ?_, fun hs => ?_⟩
  · cases nd <;> decide +kernel
  · cases nd <;> decide +kernel
  · cases nd <;> decide +kernel
  · cases nd <;> decide +kernel
  · rintro ⟨h, _⟩
    omega
  · have := hs.isolated 0 0 2 hv (by omega) h0 hk
    rw [hm] at this
    exact absurd (h1.symm.trans this) (by simp)
end LBDD
