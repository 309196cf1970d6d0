import Verif.Props.Ops
/-!
# Canonicity, order, stability of handles, sharing, tables, reference counts, node pool (C07–C11, C30, C36, C38)
-/
namespace LBDD
section
variable {cfg : Cfg} {u : Use} {a a' : Api} {p q : Nat}

/-! ## C07 -/

/-- C07, for histories that respect the variable order and do not use `xor_rec` (see `C07_refuted`): two handles refer to the
same node (`operator==`) exactly when `evaluate` agrees on every assignment. -/
theorem C07_canonical_partial (hR : Reachable cfg .ordered a) (hp : a.Holds p) (hq : a.Holds q) :
    p = q ↔ ∀ x, Covers a.mgr x → evaluate cfg a.mgr p x = evaluate cfg a.mgr q x := by
  constructor
  · rintro rfl x _; rfl
  · intro h
    obtain ⟨t, ht⟩ := hR.good.any hp
    obtain ⟨t', ht'⟩ := hR.good.any hq
    have he := eval_eq_of_lists hR.good ht ht' h
    have ho : Use.ordered.md.ordered := Use.ordered_iff.2 rfl
    have := Tree.eq_of_eval (hR.good.ord ho _ _ ht) (hR.good.ord ho _ _ ht') (hR.good.reduced ht) (hR.good.reduced ht') he
    subst this
    exact hR.good.repr_inj ht ht'

/-- In every discipline: two handles with equal variable and equal children are equal. -/
theorem C07_equal_nodes_equal_handles (hR : Reachable cfg u a) (hp : a.Holds p) (hq : a.Holds q) (p2 : 2 ≤ p) (q2 : 2 ≤ q)
    (hv : (a.mgr.cells p).index = (a.mgr.cells q).index) (hlo : (a.mgr.cells p).lo = (a.mgr.cells q).lo)
    (hhi : (a.mgr.cells p).hi = (a.mgr.cells q).hi) : p = q := by
  obtain ⟨t, ht⟩ := hR.good.any hp
  obtain ⟨t', ht'⟩ := hR.good.any hq
  exact hR.good.uniq p q p2 q2 (hR.good.live_of ht) (hR.good.live_of ht') hv hlo hhi

/-! ## C08 -/

/-- C08, for histories that respect the order and do not use `xor_rec` (see `C08_refuted`): along every arc of a held BDD
between inner nodes the variable index increases. -/
theorem C08_ordered_partial (hR : Reachable cfg .ordered a) (hp : a.Holds p) (hr : Reaches a.mgr.cells p q) (q2 : 2 ≤ q) {c : Nat}
    (hc : c = (a.mgr.cells q).lo ∨ c = (a.mgr.cells q).hi) (c2 : 2 ≤ c) : (a.mgr.cells q).index < (a.mgr.cells c).index := by
  have ho : Use.ordered.md.ordered := Use.ordered_iff.2 rfl
  obtain ⟨t, ht⟩ := (hR.good.any hp).reaches hr
  have hord := hR.good.ord ho _ _ ht
  obtain ⟨tl, th, rfl, _, _, h3, h4⟩ := ht.inv q2
  rcases hc with rfl | rfl
  · obtain ⟨_, _, e, _⟩ := h3.inv c2
    exact hord.1 _ (by rw [e]; exact Or.inl rfl)
  · obtain ⟨_, _, e, _⟩ := h4.inv c2
    exact hord.2.1 _ (by rw [e]; exact Or.inl rfl)

/-! ## C09 -/

/-- `a'` is reached from `a` by further legal calls; at every garbage collection among them node `p` is reachable from some handle. -/
inductive Later (cfg : Cfg) (u : Use) (p : Nat) (a : Api) : Api → Prop
  | refl : Later cfg u p a a
  | step {b c : Api} {op : Op} : Later cfg u p a b → (op = .gc → b.Kept p) → Legal cfg u b op → step cfg op b = .ok () c → Later cfg u p a c

theorem Later.good (h : Later cfg u p a a') (hR : Reachable cfg u a) (hl : (a.mgr.cells p).live = true) : Reachable cfg u a' ∧
    a.mgr.nvars ≤ a'.mgr.nvars ∧ (∀ t, Repr a.mgr.cells p t → Repr a'.mgr.cells p t) ∧
    (∀ q, Reaches a.mgr.cells p q → Reaches a'.mgr.cells p q ∧ (a'.mgr.cells q).live = true ∧ (a'.mgr.cells q).lo = (a.mgr.cells q).lo ∧
      (a'.mgr.cells q).hi = (a.mgr.cells q).hi ∧ (a'.mgr.cells q).index = (a.mgr.cells q).index) := by
  induction h with
  | refl => exact ⟨hR, Nat.le_refl _, fun _ h => h, fun q hq => ⟨hq, hR.good.heapOk.reach_live hl hq, rfl, rfl, rfl⟩⟩
  | @step b c op _ hk hleg e ih =>
    obtain ⟨hRb, n1, r1, q1⟩ := ih
    have hRc : Reachable cfg u c := .step hRb hleg e
    by_cases hgc : op = .gc
    · have hP := (step_good hRb.good hleg e).2
      have hkp := hk hgc
      refine ⟨hRc, Nat.le_trans n1 hP.nvars, fun t ht => hP.repr (r1 t ht) hkp, fun q hq => ?_⟩
      obtain ⟨a1, _, a3, a4, a5⟩ := q1 q hq
      have hkq : b.Kept q := by
        rcases hkp with h | ⟨h, hh, hr⟩
        · have : q = p := by
            cases a1 with
            | refl => rfl
            | lo h2 => omega
            | hi h2 => omega
          rw [this]; exact Or.inl h
        · exact Or.inr ⟨h, hh, hr.trans a1⟩
      obtain ⟨b1, b2, b3, b4, _⟩ := hP.kept q hkq
      exact ⟨hP.kept_reaches hkp a1, b1, b2.trans a3, b3.trans a4, b4.trans a5⟩
    · have hg := (step_grow hRb.good hleg hgc e).2
      refine ⟨hRc, Nat.le_trans n1 hg.nvars, fun t ht => (r1 t ht).ext hg.cells, fun q hq => ?_⟩
      obtain ⟨a1, a2, a3, a4, a5⟩ := q1 q hq
      obtain ⟨b1, b2, b3, b4, _⟩ := hg.cells q a2
      exact ⟨a1.ext hg.cells, b1, b2.trans a3, b3.trans a4, b4.trans a5⟩

/-- C09: no later history of calls (in any discipline, with garbage collections while the BDD is referenced) changes the function of a held BDD or the
variable, low child or high child of any of its nodes. -/
theorem C09_handles_stable (hR : Reachable cfg u a) (hl : Later cfg u p a a') (hp : a.Holds p) :
    (∀ F, Denotes cfg a.mgr p F → Denotes cfg a'.mgr p F) ∧
    (∀ q, Reaches a.mgr.cells p q → Reaches a'.mgr.cells p q ∧ (a'.mgr.cells q).live = true ∧
      (a'.mgr.cells q).index = (a.mgr.cells q).index ∧ (2 ≤ q → (a'.mgr.cells q).lo = (a.mgr.cells q).lo ∧
        (a'.mgr.cells q).hi = (a.mgr.cells q).hi)) := by
  obtain ⟨t, ht⟩ := hR.good.any hp
  obtain ⟨hR', hn, hr, hq⟩ := hl.good hR (hR.good.live_of ht)
  refine ⟨?_, ?_⟩
  · intro F dF x hc
    rw [dF.eq (denotes_repr hR.good ht) (hc.anti hn)]
    exact evals_repr hR'.good (hr t ht) hc
  · intro q h
    obtain ⟨h1, h2, h3, h4, h5⟩ := hq q h
    exact ⟨h1, h2, h5, fun _ => ⟨h3, h4⟩⟩

/-! ## C10 -/

/-- C10: no two nodes with equal variable and children, and no node with equal children. -/
theorem C10_no_duplicates (hR : Reachable cfg u a) :
    (∀ p q, 2 ≤ p → 2 ≤ q → (a.mgr.cells p).live = true → (a.mgr.cells q).live = true →
      (a.mgr.cells p).index = (a.mgr.cells q).index → (a.mgr.cells p).lo = (a.mgr.cells q).lo →
      (a.mgr.cells p).hi = (a.mgr.cells q).hi → p = q) ∧
    (∀ p, 2 ≤ p → (a.mgr.cells p).live = true → (a.mgr.cells p).lo ≠ (a.mgr.cells p).hi) :=
  ⟨hR.good.uniq, fun p h2 hl => (hR.good.node p h2 hl).2.1⟩

/-- C10: `unique_find(v, l, h)` returns the node for the triple (or the common child); asking again returns the same handle and changes nothing. -/
theorem C10_unique_find (hR : Reachable cfg u a) {v l h : Nat} (hv : v < a.mgr.nvars) (hl : a.Holds l) (hh : a.Holds h)
    (ho : u = .ordered → ∀ w, Occurs a.mgr l w ∨ Occurs a.mgr h w → v < w) :
    Returns (mgrUniqueFind cfg v l h a.mgr) (fun r s' =>
      (l = h → r = l ∧ s' = a.mgr) ∧
      (l ≠ h → 2 ≤ r ∧ (s'.cells r).live = true ∧ (s'.cells r).index = v ∧ (s'.cells r).lo = l ∧ (s'.cells r).hi = h) ∧
      mgrUniqueFind cfg v l h s' = .ok r s') := by
  obtain ⟨tl, rl⟩ := hR.good.any hl
  obtain ⟨th, rh⟩ := hR.good.any hh
  have hass : ∀ s : Mgr, v < s.nvars → mgrUniqueFind cfg v l h s = uniqueFind cfg v l h s := by
    intro s hs
    unfold mgrUniqueFind
    rw [M.get_bind_apply, M.assert_bind_apply (by simpa using hs)]
  rw [hass _ hv]
  by_cases hlh : l = h
  · subst hlh
    rw [uniqueFind_same v l hv]
    exact ⟨fun _ => ⟨rfl, rfl⟩, fun h => absurd rfl h, by rw [hass _ hv]; exact uniqueFind_same v l hv⟩
  · have hspec := uniqueFind_spec hR.good hv rl rh (fun hm w hw => ho (Use.ordered_iff.1 hm) w (by
      rcases hw with hw | hw
      · exact Or.inl ((occurs_iff rl w).2 hw)
      · exact Or.inr ((occurs_iff rh w).2 hw)))
    refine hspec.returns ?_
    rintro r s' hx hi' hP
    have hr := hP.1
    have hne : tl ≠ th := by rintro rfl; exact hlh (hR.good.repr_inj rl rh)
    unfold mkTree at hr
    rw [if_neg hne] at hr
    obtain ⟨r2, rv, rlive, _, h3, h4⟩ := hr.of_node
    have e1 := hi'.repr_inj h3 (rl.ext hx.cells)
    have e2 := hi'.repr_inj h4 (rh.ext hx.cells)
    have hv' : v < s'.nvars := by rw [hx.nvars]; exact hv
    refine ⟨fun h => absurd h hlh, fun _ => ⟨r2, rlive, rv.symm, e1, e2⟩, ?_⟩
    rw [hass _ hv']
    exact uniqueFind_hit hi' hv' hlh r2 rlive rv.symm e1 e2

/-! ## C11 -/

/-- C11: in every reachable state a table lookup terminates and finds exactly the node with the given variable and children. -/
theorem C11_lookup_exact (hR : Reachable cfg u a) {v : Nat} (hv : v < a.mgr.nvars) (l h : Nat) :
    ∃ o, tableLookup a.mgr.cells (a.mgr.tabs v) l h = .ok o ∧ ∀ p, o = some p ↔
      2 ≤ p ∧ (a.mgr.cells p).live = true ∧ (a.mgr.cells p).index = v ∧ (a.mgr.cells p).lo = l ∧ (a.mgr.cells p).hi = h := by
  rcases lookup_ok (l := l) (h := h) (hR.good.tab v hv) with ⟨e, hn⟩ | ⟨p, e, h1, h2, h3, h4, h5⟩
  · exact ⟨none, e, fun p => ⟨fun h => by simp at h, fun h => absurd ⟨h.2.2.2.1, h.2.2.2.2⟩ (hn p h.1 h.2.1 h.2.2.1)⟩⟩
  · refine ⟨some p, e, fun q => ⟨?_, ?_⟩⟩
    · intro h; cases h; exact ⟨h1, h2, h3, h4, h5⟩
    · rintro ⟨q1, q2, q3, q4, q5⟩
      rw [hR.good.uniq p q h1 q1 h2 q2 (h3.trans q3.symm) (h4.trans q4.symm) (h5.trans q5.symm)]

/-- C11: in every reachable state the search for a free slot terminates inside the page with an empty slot. -/
theorem C11_insert_terminates (hR : Reachable cfg u a) {v : Nat} (hv : v < a.mgr.nvars) (k : Nat) :
    ∃ i, nextFreeSlot (a.mgr.tabs v) k = .ok i ∧ i ≤ (a.mgr.tabs v).mask ∧ i < (a.mgr.tabs v).cap ∧ (a.mgr.tabs v).slots i = none := by
  have ht := hR.good.tab v hv
  obtain ⟨e, _, _, he⟩ := ht.pow
  obtain ⟨i, h1, h2, h3, _⟩ := nextFreeSlot_ok he ht.cap k ht.free_pos
  exact ⟨i, h1, by omega, by have := ht.cap; omega, h3⟩

/-- C11: growing a table (when it is due) loses nothing and adds nothing: every lookup in every table gives the same answer before and
after; nodes are not touched. -/
theorem C11_growth_exact (hR : Reachable cfg u a) {v : Nat} (hv : v < a.mgr.nvars) :
    Returns (growIfNeeded cfg v a.mgr) (fun _ s' => s'.cells = a.mgr.cells ∧ s'.nvars = a.mgr.nvars ∧
      (overfull (a.mgr.tabs v) = true → (s'.tabs v).mask = 2 * (a.mgr.tabs v).mask + 1) ∧
      ∀ w, w < a.mgr.nvars → ∀ l h, tableLookup s'.cells (s'.tabs w) l h = tableLookup a.mgr.cells (a.mgr.tabs w) l h) := by
  unfold growIfNeeded
  rw [M.get_bind_apply]
  split
  · rename_i ho
    have hd := doubleCache_ok hR.good hv ho
    unfold M.Sat at hd
    unfold Returns
    cases e : doubleCache cfg v a.mgr with
    | ok r s1 =>
      rw [e] at hd
      obtain ⟨t, rfl, ht, hm, _⟩ := hd
      refine ⟨rfl, rfl, fun _ => by simp only [upd_same]; omega, ?_⟩
      intro w hw l h
      show tableLookup a.mgr.cells (upd a.mgr.tabs v t w) l h = _
      by_cases hwv : w = v
      · subst hwv
        rw [upd_same]
        rcases lookup_ok (l := l) (h := h) (hR.good.tab w hw) with ⟨e, hn⟩ | ⟨p, e, h1, h2, h3, h4, h5⟩
        · rcases lookup_ok (s := a.mgr) (l := l) (h := h) ht with ⟨e', _⟩ | ⟨q, _, q1, q2, q3, q4, q5⟩
          · rw [e, e']
          · exact absurd ⟨q4, q5⟩ (hn q q1 q2 q3)
        · rcases lookup_ok (s := a.mgr) (l := l) (h := h) ht with ⟨_, hn⟩ | ⟨q, e', q1, q2, q3, q4, q5⟩
          · exact absurd ⟨h4, h5⟩ (hn p h1 h2 h3)
          · rw [e, e', hR.good.uniq p q h1 q1 h2 q2 (h3.trans q3.symm) (h4.trans q4.symm) (h5.trans q5.symm)]
      · rw [upd_ne _ _ hwv]
    | throw s1 => rw [e] at hd; exact hd.full
    | assertFail => rw [e] at hd; exact hd
    | ub => rw [e] at hd; exact hd
    | hang => rw [e] at hd; exact hd
  · rename_i ho
    exact ⟨rfl, rfl, fun h => absurd h ho, fun _ _ _ _ => rfl⟩

/-! ## C30 -/

/-- C30: `reference_count()` of every node in use is the number of the user's handles to it plus the number of arcs to it (plus one for the
sinks, which the pool itself holds). -/
theorem C30_xref_exact (hR : Reachable cfg u a) (p : Nat) (hp : (a.mgr.cells p).live = true) :
    (a.mgr.cells p).xref = a.count p + arcsTo a.mgr.cells p a.mgr.pool.hw + (if p < 2 then 1 else 0) := hR.good.ref.count p hp

/-- C30: all nodes are below the bound used in `C30_xref_exact`, so no arc is missed. -/
theorem C30_all_counted (hR : Reachable cfg u a) (p : Nat) (hp : (a.mgr.cells p).live = true) : p < a.mgr.pool.hw :=
  ((hR.good.pool.live p).1 hp).1

/-- A held handle always refers to a node in use (never to a freed one). -/
theorem C30_held_live (hR : Reachable cfg u a) (hp : a.Holds p) : (a.mgr.cells p).live = true := by
  obtain ⟨t, ht⟩ := hR.good.any hp
  exact hR.good.live_of ht

/-! ## C36 -/

/-- States of the node pool reachable by `reserve_node` and `free_node`, with the nodes handed out and not yet freed. -/
inductive PoolReach : Pool → List Nat → Prop
  | init : PoolReach ⟨1, 2, [], 2⟩ []
  | reserve {c : Pool} {l : List Nat} : PoolReach c l → PoolReach c.reserve.2 (c.reserve.1 :: l)
  | free {c : Pool} {l : List Nat} {p : Nat} : PoolReach c l → p ∈ l → PoolReach (c.release p) (l.erase p)

structure PoolInv (c : Pool) (l : List Nat) : Prop where
  pages : 1 ≤ c.pages
  off : c.off ≤ 4096
  off2 : 2 ≤ c.hw
  nodup : (l ++ c.avail).Nodup
  mem : ∀ p, p ∈ l ++ c.avail ↔ 2 ≤ p ∧ p < c.hw
  total : c.total = l.length + 2

theorem Pool.reserve_nil (c : Pool) (h : c.avail = []) (h1 : 1 ≤ c.pages) (h2 : c.off ≤ 4096) :
    c.reserve.1 = c.hw ∧ c.reserve.2.hw = c.hw + 1 ∧ c.reserve.2.avail = [] ∧ c.reserve.2.total = c.total + 1 ∧ 1 ≤ c.reserve.2.pages ∧
      c.reserve.2.off ≤ 4096 := by
  obtain ⟨pages, off, avail, total⟩ := c
  subst h
  simp only at h1 h2
  unfold Pool.reserve Pool.hw
  simp only
  split
  · rename_i h
    refine ⟨rfl, ?_, rfl, rfl, h1, ?_⟩ <;> simp only <;> omega
  · rename_i h
    have : off = 4096 := by omega
    subst this
    obtain ⟨k, rfl⟩ : ∃ k, pages = k + 1 := ⟨pages - 1, by omega⟩
    simp only [Nat.add_sub_cancel]
    refine ⟨?_, ?_, trivial, trivial, ?_, ?_⟩
    · rw [Nat.add_mul]
    · rw [Nat.add_mul]
    · omega
    · omega

theorem PoolReach.inv {c : Pool} {l : List Nat} (h : PoolReach c l) : PoolInv c l := by
  induction h with
  | init =>
    refine ⟨by decide, by decide, by decide, by simp, ?_, rfl⟩
    intro p
    simp [Pool.hw]
  | @reserve c l _ ih =>
    cases ha : c.avail with
    | nil =>
      obtain ⟨h1, h2, h3, h4, h5, h6⟩ := c.reserve_nil ha ih.pages ih.off
      refine ⟨h5, h6, by rw [h2]; have := ih.off2; omega, ?_, ?_, by rw [h4, ih.total]; simp⟩
      · have hn := ih.nodup
        rw [ha] at hn
        rw [h3, h1]
        simp only [List.append_nil, List.nodup_cons] at hn ⊢
        refine ⟨fun hm => ?_, hn⟩
        have := (ih.mem c.hw).1 (by simp [hm])
        omega
      · intro p
        have := ih.mem p
        rw [ha] at this
        rw [h3, h2, h1]
        simp only [List.append_nil, List.mem_cons] at this ⊢
        rw [this]
        have := ih.off2
        omega
    | cons r rest =>
      have e : c.reserve = (r, { c with avail := rest, total := c.total + 1 }) := by unfold Pool.reserve; rw [ha]
      have hm := ih.mem
      have hn := ih.nodup
      rw [ha] at hm hn
      rw [e]
      refine ⟨ih.pages, ih.off, ih.off2, ?_, ?_, by show c.total + 1 = _; rw [ih.total]; simp⟩
      · have : (l ++ r :: rest).Perm (r :: l ++ rest) := List.perm_middle
        exact this.nodup_iff.1 hn
      · intro p
        have h := hm p
        rw [show Pool.hw { c with avail := rest, total := c.total + 1 } = c.hw from rfl, ← h]
        simp only [List.mem_append, List.mem_cons]
        constructor
        · rintro ((h | h) | h)
          · exact Or.inr (Or.inl h)
          · exact Or.inl h
          · exact Or.inr (Or.inr h)
        · rintro (h | h | h)
          · exact Or.inl (Or.inr h)
          · exact Or.inl (Or.inl h)
          · exact Or.inr h
  | @free c l p _ hp ih =>
    have hperm : (l.erase p ++ p :: c.avail).Perm (l ++ c.avail) := by
      have h1 : (l.erase p ++ p :: c.avail).Perm (p :: (l.erase p ++ c.avail)) := List.perm_middle
      have h2 : (p :: l.erase p).Perm l := (List.perm_cons_erase hp).symm
      exact h1.trans (h2.append_right c.avail)
    refine ⟨ih.pages, ih.off, ih.off2, hperm.nodup_iff.2 ih.nodup, ?_, ?_⟩
    · intro q
      show q ∈ l.erase p ++ p :: c.avail ↔ _
      rw [hperm.mem_iff]
      exact ih.mem q
    · show c.total - 1 = _
      rw [ih.total, List.length_erase_of_mem hp]
      have := List.length_pos_of_mem hp
      omega

/-- C36: a node handed out by the pool is neither a sink nor in use, and the reported number of nodes is two plus the number of nodes in use. -/
theorem C36_pool {c : Pool} {l : List Nat} (h : PoolReach c l) :
    c.reserve.1 ∉ l ∧ 2 ≤ c.reserve.1 ∧ l.Nodup ∧ c.total = l.length + 2 := by
  have hi := h.inv
  have hi' := (PoolReach.reserve h).inv
  refine ⟨?_, ((hi'.mem _).1 (by simp)).1, (List.nodup_append.1 hi.nodup).1, hi.total⟩
  have := hi'.nodup
  rw [List.cons_append, List.nodup_cons] at this
  exact fun hm => this.1 (by simp [hm])

/-- A non-trivial pool state: three nodes reserved, the second one freed and handed out again. -/
example : PoolReach ⟨1, 5, [], 5⟩ [3, 4, 2] := by
  have h := PoolReach.reserve (PoolReach.free (PoolReach.reserve (PoolReach.reserve (PoolReach.reserve .init))) (p := 3) (by decide))
  exact h

/-- The node count of a manager that satisfies the invariant. -/
theorem Inv.nr_nodes {md : Md} {refs : Nat → Nat} {s : Mgr} (hi : Inv cfg md refs s) : ∃ l : List Nat, l.Nodup ∧
    (∀ p, p ∈ l ↔ 2 ≤ p ∧ (s.cells p).live = true) ∧ s.pool.total = l.length + 2 := by
  have hp := hi.pool
  refine ⟨(List.range s.pool.hw).filter (fun p => 2 ≤ p && (s.cells p).live), List.nodup_range.filter _, ?_, ?_⟩
  · intro p
    simp only [List.mem_filter, List.mem_range, Bool.and_eq_true, decide_eq_true_eq]
    exact ⟨fun h => h.2, fun h => ⟨((hp.live p).1 h.2).1, h⟩⟩
  · have key : ((List.range s.pool.hw).filter (fun p => 2 ≤ p && (s.cells p).live) ++ (s.pool.avail ++ [0, 1])).Perm
        (List.range s.pool.hw) := by
      refine (List.perm_ext_iff_of_nodup ?_ List.nodup_range).2 ?_
      · rw [List.nodup_append]
        refine ⟨List.nodup_range.filter _, ?_, ?_⟩
        · rw [List.nodup_append]
          refine ⟨hp.nodup, by decide, ?_⟩
          intro x hx y hy e
          have := (hp.avail x hx).1
          simp at hy; omega
        · intro x hx y hy e
          subst e
          simp only [List.mem_filter, Bool.and_eq_true, decide_eq_true_eq] at hx
          rcases List.mem_append.1 hy with h | h
          · exact ((hp.live x).1 hx.2.2).2 h
          · simp at h; omega
      · intro x
        have h2 := hp.off2
        simp only [List.mem_append, List.mem_filter, List.mem_range, Bool.and_eq_true, decide_eq_true_eq, List.mem_cons,
          List.not_mem_nil, or_false]
        constructor
        · rintro (h | h | h | h)
          · exact h.1
          · exact (hp.avail x h).2
          · omega
          · omega
        · intro hx
          by_cases h : x < 2
          · right; right; omega
          · by_cases hm : x ∈ s.pool.avail
            · exact Or.inr (Or.inl hm)
            · exact Or.inl ⟨hx, by omega, (hp.live x).2 ⟨hx, hm⟩⟩
    have := key.length_eq
    simp only [List.length_append, List.length_range, List.length_cons, List.length_nil] at this
    have ht := hp.total
    omega

/-- C36 for managers: `mgr.nr_nodes()` is two plus the number of nodes in use, in every reachable state. -/
theorem C36_mgr_nr_nodes (hR : Reachable cfg u a) : ∃ l : List Nat, l.Nodup ∧ (∀ p, p ∈ l ↔ 2 ≤ p ∧ (a.mgr.cells p).live = true) ∧
    a.mgr.pool.total = l.length + 2 := hR.good.nr_nodes

/-! ## C38 -/

/-- C38: the page of every table has at least as many slots as the table indexes, in every reachable state. -/
theorem C38_page_large (hR : Reachable cfg u a) {v : Nat} (hv : v < a.mgr.nvars) : (a.mgr.tabs v).mask < (a.mgr.tabs v).cap := by
  have := (hR.good.tab v hv).cap
  omega
end

/-! ## Concrete instances -/

/-- C07–C11, C30: the demo state holds non-trivial BDDs in the ordered discipline. -/
example : Reachable (envOf false) .ordered (demo .ordered) ∧ (demo .ordered).Holds 5 ∧ (demo .ordered).Holds 9 ∧ 1 < (demo .ordered).mgr.nvars ∧
    Reaches (demo .ordered).mgr.cells 9 4 ∧ ((demo .ordered).mgr.cells 3).xref = 2 := by
  refine ⟨demo_reachable _, ?_, ?_, by decide +kernel, ?_, by decide +kernel⟩
  · unfold Api.Holds; rw [demo_hs]; decide
  · unfold Api.Holds; rw [demo_hs]; decide
  · refine .lo (by decide) (by decide +kernel) ?_
    rw [show ((demo .ordered).mgr.cells 9).lo = 4 by decide +kernel]
    exact .refl _

/-! ## Refutations -/

/-- In reachable states, `evaluate` only looks at the manager's variables. -/
theorem evaluate_take {cfg : Cfg} {u : Use} {a : Api} {p : Nat} (hR : Reachable cfg u a) (hp : a.Holds p) {x : List Bool} (hx : Covers a.mgr x) :
    evaluate cfg a.mgr p x = evaluate cfg a.mgr p (x.take a.mgr.nvars) := by
  obtain ⟨t, ht⟩ := hR.good.any hp
  have h1 := evals_repr hR.good ht hx
  have h2 := evals_repr hR.good ht (x := x.take a.mgr.nvars) (by unfold Covers at *; rw [List.length_take]; omega)
  unfold EvalsTo at h1 h2
  rw [h1, h2]
  congr 1
  refine Tree.eval_congr (fun w hw => ?_)
  have := hR.good.mem_lt ht hw
  simp only [asg, List.getD_eq_getElem?_getD]
  rw [List.getElem?_take_of_lt this]

/-- Handles: x0, x1, x0 xor x1, ¬x1, x0∧¬x1, ¬x0, ¬x0∧x1, and the same exclusive or built from conjunctions and negations. -/
def twoXors (nd : Bool) : Api := stateAfter (envOf nd) .parity
  [.call (.projection 0) [], .call (.projection 1) [], .call .xor [0, 1], .call .negate [1], .call .and [0, 3], .call .negate [0],
   .call .and [5, 1], .call .negate [4], .call .negate [6], .call .and [7, 8], .call .negate [9]]

theorem twoXors_hs (nd : Bool) : (twoXors nd).hs = [some 2, some 3, some 5, some 6, some 7, some 4, some 8, some 9, some 10, some 11, some 12] := by
  cases nd <;> decide +kernel

theorem twoXors_nvars (nd : Bool) : (twoXors nd).mgr.nvars = 2 := by cases nd <;> decide +kernel

theorem twoXors_eval (nd b0 b1 : Bool) :
    evalsB (envOf nd) (twoXors nd).mgr 5 [b0, b1] (b0 != b1) = true ∧ evalsB (envOf nd) (twoXors nd).mgr 12 [b0, b1] (b0 != b1) = true := by
  revert nd b0 b1; decide +kernel

/-- The full C07 is false: `xor_rec(x0, x1)` and the same function built from conjunctions and negations are different handles. -/
theorem C07_refuted : ∀ nd : Bool, ∃ a p q, Reachable (envOf nd) .parity a ∧ a.Holds p ∧ a.Holds q ∧ p ≠ q ∧
    ∀ x, Covers a.mgr x → evaluate (envOf nd) a.mgr p x = evaluate (envOf nd) a.mgr q x := by
  intro nd
  have hR : Reachable (envOf nd) .parity (twoXors nd) := stateAfter_reachable _ _ _
  have h5 : (twoXors nd).Holds 5 := by unfold Api.Holds; rw [twoXors_hs]; decide
  have h12 : (twoXors nd).Holds 12 := by unfold Api.Holds; rw [twoXors_hs]; decide
  refine ⟨twoXors nd, 5, 12, hR, h5, h12, by decide, ?_⟩
  intro x hx
  rw [evaluate_take hR h5 hx, evaluate_take hR h12 hx]
  unfold Covers at hx
  rw [twoXors_nvars] at hx ⊢
  match x, hx with
  | b0 :: b1 :: _, _ =>
    simp only [List.take_succ_cons, List.take_zero]
    obtain ⟨e1, e2⟩ := twoXors_eval nd b0 b1
    exact (evalsB_sound e1).trans (evalsB_sound e2).symm

/-- The full C08 is false: the root of `xor_rec(x0, x1)` has variable 1 and its low child variable 0. -/
theorem C08_refuted : ∀ nd : Bool, ∃ a p, Reachable (envOf nd) .parity a ∧ a.Holds p ∧ 2 ≤ p ∧ 2 ≤ (a.mgr.cells p).lo ∧
    (a.mgr.cells (a.mgr.cells p).lo).index < (a.mgr.cells p).index := by
  intro nd
  refine ⟨twoXors nd, 5, stateAfter_reachable _ _ _, ?_, by decide, ?_, ?_⟩
  · unfold Api.Holds; rw [twoXors_hs]; decide
  · cases nd <;> decide +kernel
  · cases nd <;> decide +kernel

end LBDD
