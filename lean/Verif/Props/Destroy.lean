import Verif.Props.GcBad
import Verif.Props.Query
/-!
# Destruction of a manager (C55)
-/
namespace LBDD
section
variable {cfg : Cfg} {u : Use} {a a' : Api}

/-- Slot `j` of table `v` has been visited when the loops are at slot `k` of table `i`. -/
def Past (i k v j : Nat) : Prop := v < i ∨ v = i ∧ j < k

/-- Progress of the destructor: `s0` is the state at its start. -/
structure Tear (cfg : Cfg) (refs : Nat → Nat) (s0 : Mgr) (i k : Nat) (s : Mgr) : Prop where
  same : ∀ p, (s.cells p).lo = (s0.cells p).lo ∧ (s.cells p).hi = (s0.cells p).hi ∧ (s.cells p).index = (s0.cells p).index
  nvars : s.nvars = s0.nvars
  dims : ∀ v, (s.tabs v).mask = (s0.tabs v).mask ∧ (s.tabs v).cap = (s0.tabs v).cap
  gone : ∀ v j, Past i k v j → j ≤ (s0.tabs v).mask → (s.tabs v).slots j = none
  kept : ∀ v j, ¬ Past i k v j → (s.tabs v).slots j = (s0.tabs v).slots j
  live : ∀ p, (s.cells p).live = true ↔ (s0.cells p).live = true ∧
    ¬ ∃ v j, v < s0.nvars ∧ j ≤ (s0.tabs v).mask ∧ Past i k v j ∧ (s0.tabs v).slots j = some p
  pool : PoolOk s
  hw : s.pool.hw = s0.pool.hw
  heap : cfg.ndebug = false → HeapOk refs s

theorem PoolOk.freed {s : Mgr} (h : PoolOk s) {p : Nat} (h2 : 2 ≤ p) (hl : (s.cells p).live = true) : PoolOk (freedState s p) := by
  obtain ⟨hp1, hp2⟩ := (h.live p).1 hl
  have hlive : ∀ q, ((freedState s p).cells q).live = true ↔ (s.cells q).live = true ∧ q ≠ p :=
    fun q => (freedCells_eq s.cells p q).2.2.2.2.1
  constructor
  · exact h.pages
  · exact h.off
  · exact h.off2
  · intro q
    rw [hlive, h.live q]
    show _ ↔ q < s.pool.hw ∧ q ∉ p :: s.pool.avail
    rw [List.mem_cons]
    constructor
    · rintro ⟨⟨b1, b2⟩, b3⟩
      exact ⟨b1, fun h => h.elim b3 b2⟩
    · rintro ⟨b1, b2⟩
      exact ⟨⟨b1, fun h => b2 (.inr h)⟩, fun h => b2 (.inl h)⟩
  · intro q hq
    rcases List.mem_cons.1 hq with rfl | hq
    · exact ⟨h2, hp1⟩
    · exact h.avail q hq
  · exact List.nodup_cons.2 ⟨hp2, h.nodup⟩
  · have ht := h.total
    have hle : s.pool.avail.length + 1 ≤ s.pool.hw := by
      have hn : (p :: s.pool.avail).Nodup := List.nodup_cons.2 ⟨hp2, h.nodup⟩
      have := stored_le (sl := fun i => some i) s.pool.hw _ hn (fun q hq => by
        rcases List.mem_cons.1 hq with rfl | hq
        · exact ⟨_, hp1, rfl⟩
        · exact ⟨_, (h.avail q hq).2, rfl⟩)
      simp only [List.length_cons] at this
      omega
    show s.pool.total - 1 + (p :: s.pool.avail).length = s.pool.hw
    simp only [List.length_cons]
    omega

theorem freeNode_release {s : Mgr} {p : Nat} (hnd : cfg.ndebug = true) (hl : (s.cells p).live = true) (hi : (s.cells p).index < topsinkIndex) :
    freeNode cfg p s = .ok () (freedState s p) := by
  unfold freeNode
  rw [M.get_bind_apply]
  simp only
  rw [if_neg (by simp [hl]; omega)]
  simp only [hnd]
  rfl

/-- One visited slot. -/
theorem Tear.slot {md : Md} {refs : Nat → Nat} {s0 s : Mgr} {i k : Nat} (hi : Inv cfg md refs s0) (hv : i < s0.nvars) (hk : k ≤ (s0.tabs i).mask)
    (ho : cfg.ndebug = true ∨ (md.ordered ∧ ∀ p, refs p = 0)) (h : Tear cfg refs s0 i k s) :
    ∃ s1, Tear cfg refs s0 i (k + 1) s1 ∧ ∀ (α : Type) (f : M Mgr α),
      ((match (s.tabs i).slots k with
        | none => do storeSlot i k none; f
        | some p => do freeNode cfg p; storeSlot i k none; f) : M Mgr α) s = f s1 := by
  have hpast : ∀ v j, Past i (k + 1) v j ↔ Past i k v j ∨ (v = i ∧ j = k) := by
    intro v j; unfold Past; omega
  have hnp : ¬ Past i k i k := by unfold Past; omega
  have hslot := h.kept i k hnp
  cases hs : (s.tabs i).slots k with
  | none =>
    rw [hslot] at hs
    refine ⟨{ s with tabs := upd s.tabs i { s.tabs i with slots := upd (s.tabs i).slots k none } }, ?_, fun α f => rfl⟩
    have htab : ∀ v j, ((upd s.tabs i { s.tabs i with slots := upd (s.tabs i).slots k none }) v).slots j = (s.tabs v).slots j := by
      intro v j
      by_cases e : v = i
      · subst e
        rw [upd_same]
        show upd _ _ _ j = _
        by_cases ej : j = k
        · subst ej; rw [upd_same, hslot, hs]
        · rw [upd_ne _ _ ej]
      · rw [upd_ne _ _ e]
    refine ⟨h.same, h.nvars, ?_, ?_, ?_, ?_, ⟨h.pool.pages, h.pool.off, h.pool.off2, h.pool.live, h.pool.avail, h.pool.nodup, h.pool.total⟩, h.hw, ?_⟩
    · intro v
      show (upd s.tabs i _ v).mask = _ ∧ (upd s.tabs i _ v).cap = _
      by_cases e : v = i
      · subst e; rw [upd_same]; exact h.dims v
      · rw [upd_ne _ _ e]; exact h.dims v
    · intro v j hp hj
      show (upd s.tabs i _ v).slots j = none
      rw [htab]
      rcases (hpast v j).1 hp with hp | ⟨rfl, rfl⟩
      · exact h.gone v j hp hj
      · rw [hslot, hs]
    · intro v j hp
      show (upd s.tabs i _ v).slots j = _
      rw [htab]
      exact h.kept v j (fun hp' => hp ((hpast v j).2 (.inl hp')))
    · intro p
      rw [show (({ s with tabs := upd s.tabs i { s.tabs i with slots := upd (s.tabs i).slots k none } } : Mgr).cells p).live = (s.cells p).live from rfl,
        h.live p]
      refine and_congr_right fun _ => not_congr ⟨?_, ?_⟩
      · rintro ⟨v, j, b1, b2, b3, b4⟩
        exact ⟨v, j, b1, b2, (hpast v j).2 (.inl b3), b4⟩
      · rintro ⟨v, j, b1, b2, b3, b4⟩
        rcases (hpast v j).1 b3 with b3 | ⟨rfl, rfl⟩
        · exact ⟨v, j, b1, b2, b3, b4⟩
        · rw [hs] at b4; cases b4
    · intro hnd
      exact (GcRun.congr (s' := { s with tabs := upd s.tabs i { s.tabs i with slots := upd (s.tabs i).slots k none } }) (h.heap hnd) rfl rfl rfl rfl).ok
  | some p =>
    rw [hslot] at hs
    have ht := hi.tab i hv
    obtain ⟨p2, pl0, pidx⟩ := ht.slots.sound k p (by omega) hs
    obtain ⟨pn, pne, _⟩ := hi.node p p2 pl0
    obtain ⟨c1, c2, c3⟩ := h.same p
    have pl : (s.cells p).live = true := by
      refine (h.live p).2 ⟨pl0, ?_⟩
      rintro ⟨v, j, b1, b2, b3, b4⟩
      obtain ⟨_, _, q3⟩ := (hi.tab v b1).slots.sound j p (by omega) b4
      have : v = i := by rw [← q3, pidx]
      subst this
      have := ht.slots.inj j k p (by omega) (by omega) b4 hs
      subst this
      exact hnp b3
    have hlt : (s.cells p).index < topsinkIndex := by
      rw [c3]; have := hi.nv; omega
    have hx : cfg.ndebug = false → (s.cells p).xref ≤ 0 := by
      intro hnd
      obtain ⟨hord, hrefs⟩ := ho.resolve_left (by rw [hnd]; decide)
      have hh := h.heap hnd
      have hc := hh.count p pl
      rw [hrefs p, if_neg (by omega)] at hc
      rcases Nat.eq_zero_or_pos (arcsTo s.cells p s.pool.hw) with h0 | h0
      · rw [hc, h0]; decide
      · exfalso
        obtain ⟨q, q2, _, ql, hq⟩ := arcsTo_pos_inv h0
        obtain ⟨ql0, qg⟩ := (h.live q).1 ql
        obtain ⟨d1, d2, d3⟩ := h.same q
        rw [d1, d2] at hq
        have hlt := hi.ord_child hord q2 ql0 (hq.imp Eq.symm Eq.symm) p2
        obtain ⟨qn, _, _⟩ := hi.node q q2 ql0
        obtain ⟨j, j1, j2⟩ := (hi.tab _ qn).slots.complete q ⟨q2, ql0, rfl⟩
        exact qg ⟨_, j, qn, by omega, Or.inl (by omega), j2⟩
    have hfree : freeNode cfg p s = .ok () (freedState s p) := by
      cases hnd : cfg.ndebug with
      | true => exact freeNode_release hnd pl hlt
      | false => exact freeNode_ok (h.heap hnd) pl (hx hnd) hlt (by rw [c1, c2]; exact pne)
    refine ⟨{ freedState s p with tabs := upd s.tabs i { s.tabs i with slots := upd (s.tabs i).slots k none } }, ?_, fun α f => by
      dsimp only; rw [M.bind_ok hfree]; rfl⟩
    refine ⟨?_, h.nvars, ?_, ?_, ?_, ?_, ?_, h.hw, ?_⟩
    · intro q
      obtain ⟨f1, f2, f3, _⟩ := freedCells_eq s.cells p q
      show (freedCells s.cells p q).lo = _ ∧ (freedCells s.cells p q).hi = _ ∧ (freedCells s.cells p q).index = _
      rw [f1, f2, f3]; exact h.same q
    · intro v
      show (upd s.tabs i _ v).mask = _ ∧ (upd s.tabs i _ v).cap = _
      by_cases e : v = i
      · subst e; rw [upd_same]; exact h.dims v
      · rw [upd_ne _ _ e]; exact h.dims v
    · intro v j hp hj
      show (upd s.tabs i _ v).slots j = none
      by_cases e : v = i
      · subst e
        rw [upd_same]
        show upd _ _ _ j = _
        by_cases ej : j = k
        · subst ej; rw [upd_same]
        · rw [upd_ne _ _ ej]
          exact h.gone v j (((hpast v j).1 hp).resolve_right fun h => ej h.2) hj
      · rw [upd_ne _ _ e]
        exact h.gone v j (((hpast v j).1 hp).resolve_right fun h => e h.1) hj
    · intro v j hp
      show (upd s.tabs i _ v).slots j = _
      have hp' : ¬ Past i k v j := fun hp' => hp ((hpast v j).2 (.inl hp'))
      by_cases e : v = i
      · subst e
        rw [upd_same]
        show upd _ _ _ j = _
        by_cases ej : j = k
        · subst ej; exact absurd ((hpast v j).2 (.inr ⟨rfl, rfl⟩)) hp
        · rw [upd_ne _ _ ej]; exact h.kept v j hp'
      · rw [upd_ne _ _ e]; exact h.kept v j hp'
    · intro q
      show (freedCells s.cells p q).live = true ↔ _
      rw [(freedCells_eq s.cells p q).2.2.2.2.1, h.live q]
      constructor
      · rintro ⟨⟨b1, b2⟩, b3⟩
        refine ⟨b1, ?_⟩
        rintro ⟨v, j, g1, g2, g3, g4⟩
        rcases (hpast v j).1 g3 with g3 | ⟨rfl, rfl⟩
        · exact b2 ⟨v, j, g1, g2, g3, g4⟩
        · rw [hs] at g4; cases g4; exact b3 rfl
      · rintro ⟨b1, b2⟩
        refine ⟨⟨b1, ?_⟩, ?_⟩
        · rintro ⟨v, j, g1, g2, g3, g4⟩
          exact b2 ⟨v, j, g1, g2, (hpast v j).2 (.inl g3), g4⟩
        · rintro rfl
          exact b2 ⟨i, k, hv, hk, (hpast i k).2 (.inr ⟨rfl, rfl⟩), hs⟩
    · have := h.pool.freed p2 pl
      exact ⟨this.pages, this.off, this.off2, this.live, this.avail, this.nodup, this.total⟩
    · intro hnd
      have hrun := freedState_run (h.heap hnd) pl (hx hnd)
      exact (GcRun.congr (s' := { freedState s p with tabs := upd s.tabs i { s.tabs i with slots := upd (s.tabs i).slots k none } }) hrun.ok rfl rfl rfl rfl).ok

theorem Tear.next {refs : Nat → Nat} {s0 s : Mgr} {i : Nat} (h : Tear cfg refs s0 i ((s0.tabs i).mask + 1) s) : Tear cfg refs s0 (i + 1) 0 s := by
  have hp : ∀ v j, j ≤ (s0.tabs v).mask → (Past (i + 1) 0 v j ↔ Past i ((s0.tabs i).mask + 1) v j) := by
    intro v j hj
    unfold Past
    constructor
    · rintro (h | ⟨_, h⟩)
      · by_cases e : v = i
        · subst e; exact Or.inr ⟨rfl, by omega⟩
        · left; omega
      · omega
    · rintro (h | ⟨h, _⟩) <;> (left; omega)
  refine ⟨h.same, h.nvars, h.dims, fun v j h1 h2 => h.gone v j ((hp v j h2).1 h1) h2, ?_, ?_, h.pool, h.hw, h.heap⟩
  · intro v j hn
    refine h.kept v j ?_
    rintro (h | ⟨h, _⟩)
    · exact hn (Or.inl (by omega))
    · exact hn (Or.inl (by omega))
  · intro p
    rw [h.live p]
    refine and_congr_right fun _ => not_congr ⟨?_, ?_⟩
    · rintro ⟨v, j, b1, b2, b3, b4⟩
      exact ⟨v, j, b1, b2, (hp v j b2).2 b3, b4⟩
    · rintro ⟨v, j, b1, b2, b3, b4⟩
      exact ⟨v, j, b1, b2, (hp v j b2).1 b3, b4⟩

theorem releaseSlots_tear {md : Md} {refs : Nat → Nat} {s0 : Mgr} {i : Nat} (hi : Inv cfg md refs s0) (hv : i < s0.nvars)
    (ho : cfg.ndebug = true ∨ (md.ordered ∧ ∀ p, refs p = 0)) : ∀ (n k : Nat) (s : Mgr), k + n = (s0.tabs i).mask + 1 → Tear cfg refs s0 i k s →
    ∃ s', releaseSlots cfg i n k s = .ok () s' ∧ Tear cfg refs s0 i ((s0.tabs i).mask + 1) s' := by
  intro n
  induction n with
  | zero =>
    intro k s hk h
    refine ⟨s, rfl, ?_⟩
    have : k = (s0.tabs i).mask + 1 := by omega
    rw [← this]; exact h
  | succ n ih =>
    intro k s hk h
    obtain ⟨s1, h1, hf⟩ := h.slot hi hv (by omega) ho
    obtain ⟨s2, e2, h2⟩ := ih (k + 1) s1 (by omega) h1
    refine ⟨s2, ?_, h2⟩
    have hc := (hi.tab i hv).cap
    unfold releaseSlots
    rw [M.get_bind_apply, if_neg (by rw [(h.dims i).2]; omega)]
    exact (hf Unit (releaseSlots cfg i n (k + 1))).trans e2

theorem releaseVars_tear {md : Md} {refs : Nat → Nat} {s0 : Mgr} (hi : Inv cfg md refs s0)
    (ho : cfg.ndebug = true ∨ (md.ordered ∧ ∀ p, refs p = 0)) : ∀ (n i : Nat) (s : Mgr), i + n = s0.nvars → Tear cfg refs s0 i 0 s →
    ∃ s', releaseVars cfg n i s = .ok () s' ∧ Tear cfg refs s0 s0.nvars 0 s' := by
  intro n
  induction n with
  | zero =>
    intro i s hn h
    refine ⟨s, rfl, ?_⟩
    have : i = s0.nvars := by omega
    rw [← this]; exact h
  | succ n ih =>
    intro i s hn h
    obtain ⟨s1, e1, h1⟩ := releaseSlots_tear hi (by omega) ho ((s0.tabs i).mask + 1) 0 s (by omega) h
    obtain ⟨s2, e2, h2⟩ := ih (i + 1) s1 (by omega) h1.next
    refine ⟨s2, ?_, h2⟩
    unfold releaseVars
    rw [M.get_bind_apply, (h.dims i).1, M.bind_ok e1]
    exact e2

theorem destroyVars_tear {md : Md} {refs : Nat → Nat} {s0 s : Mgr} (hi : Inv cfg md refs s0) (h : Tear cfg refs s0 s0.nvars 0 s) :
    ∀ (n i : Nat), i + n = s0.nvars → destroyVars cfg n i s = .ok () s := by
  intro n
  induction n with
  | zero => intro i _; rfl
  | succ n ih =>
    intro i hn
    have ht := hi.tab i (by omega)
    have hc := ht.cap
    unfold destroyVars
    rw [M.get_bind_apply]
    obtain ⟨d1, d2⟩ := h.dims i
    rw [d1, d2]
    have hz : countFree (s.tabs i).slots ((s0.tabs i).mask + 1) = (s0.tabs i).mask + 1 := by
      rw [countFree_congr (sl' := fun _ => none) (fun j hj => h.gone i j (Or.inl (by omega)) (by omega)), countFree_empty]
    rw [M.assert_bind_apply (by rw [hz]; simp; omega), M.assert_bind_apply (by
      unfold freePageOk
      rcases ht.page with ⟨e, _⟩ | e
      · rw [e]; rfl
      · rw [e]; rfl)]
    exact ih (i + 1) (by omega)

/-- The number of nodes in use, for every consistent pool in which only the sinks are in use. -/
theorem PoolOk.only_sinks {s : Mgr} (hp : PoolOk s) (h : ∀ p, (s.cells p).live = true → p < 2) : s.pool.total = 2 := by
  have key : (s.pool.avail ++ [0, 1]).Perm (List.range s.pool.hw) := by
    refine (List.perm_ext_iff_of_nodup ?_ List.nodup_range).2 ?_
    · rw [List.nodup_append]
      refine ⟨hp.nodup, by decide, ?_⟩
      intro x hx y hy e
      have := (hp.avail x hx).1
      simp at hy; omega
    · intro x
      have h2 := hp.off2
      simp only [List.mem_append, List.mem_range, List.mem_cons, List.not_mem_nil, or_false]
      constructor
      · rintro (h | h | h)
        · exact (hp.avail x h).2
        · omega
        · omega
      · intro hx
        by_cases hm : x ∈ s.pool.avail
        · exact Or.inl hm
        · have := h x ((hp.live x).2 ⟨hx, hm⟩)
          right; omega
  have := key.length_eq
  simp only [List.length_append, List.length_range, List.length_cons, List.length_nil] at this
  have ht := hp.total
  omega

theorem destroy_aux {md : Md} {refs : Nat → Nat} {s0 : Mgr} (hi : Inv cfg md refs s0)
    (ho : cfg.ndebug = true ∨ (md.ordered ∧ ∀ p, refs p = 0)) :
    ∃ s', destroyMgr cfg s0 = .ok () s' ∧ (∀ p, (s'.cells p).live = true ↔ p < 2) ∧ s'.pool.total = 2 ∧
      (∀ p, 2 ≤ p → p < s0.pool.hw → p ∈ s'.pool.avail) ∧ ∀ v k, v < s0.nvars → k ≤ (s'.tabs v).mask → (s'.tabs v).slots k = none := by
  have h0 : Tear cfg refs s0 0 0 s0 := by
    have hp : ∀ v j, ¬ Past 0 0 v j := by intro v j; unfold Past; omega
    refine ⟨fun _ => ⟨rfl, rfl, rfl⟩, rfl, fun _ => ⟨rfl, rfl⟩, fun v j h => absurd h (hp v j), fun _ _ _ => rfl, ?_, hi.pool, rfl,
      fun _ => hi.heapOk⟩
    intro p
    refine ⟨fun h => ⟨h, ?_⟩, fun h => h.1⟩
    rintro ⟨v, j, _, _, b, _⟩
    exact hp v j b
  obtain ⟨s1, e1, h1⟩ := releaseVars_tear hi ho s0.nvars 0 s0 (by omega) h0
  have e2 := destroyVars_tear hi h1 s0.nvars 0 (by omega)
  have hlive : ∀ p, (s1.cells p).live = true ↔ p < 2 := by
    intro p
    rw [h1.live p]
    constructor
    · rintro ⟨pl, hn⟩
      rcases Nat.lt_or_ge p 2 with h2 | h2
      · exact h2
      · exfalso
        obtain ⟨pn, _, _⟩ := hi.node p h2 pl
        obtain ⟨j, j1, j2⟩ := (hi.tab _ pn).slots.complete p ⟨h2, pl, rfl⟩
        exact hn ⟨_, j, pn, by omega, Or.inl pn, j2⟩
    · intro h2
      have := hi.pool.off2
      refine ⟨(hi.pool.live p).2 ⟨by omega, fun h => by have := (hi.pool.avail p h).1; omega⟩, ?_⟩
      rintro ⟨v, j, b1, b2, _, b4⟩
      have := ((hi.tab v b1).slots.sound j p (by omega) b4).1
      omega
  refine ⟨s1, ?_, hlive, h1.pool.only_sinks (fun p => (hlive p).1), ?_, ?_⟩
  · unfold destroyMgr
    rw [M.get_bind_apply, M.bind_ok e1]
    exact e2
  · intro p h2 hlt
    rcases Decidable.em (p ∈ s1.pool.avail) with h | h
    · exact h
    · have := (hlive p).1 ((h1.pool.live p).2 ⟨by rw [h1.hw]; exact hlt, h⟩)
      omega
  · intro v k hv hk
    exact h1.gone v k (Or.inl hv) (by rw [← (h1.dims v).1]; exact hk)

/-- C55 in the ordered discipline, debug and release builds: destroying a manager to which no handle is left returns, no check fails, afterwards only
the two sinks are in use, every other node ever handed out is back in the pool, and every slot of every unique table is empty. (Missing: histories
with `xor_rec` in debug builds, see `C55_refuted`.) -/
theorem C55_destroy_partial (hR : Reachable cfg .ordered a) (hn : ∀ o ∈ a.hs, o = none) :
    ∃ s', destroyMgr cfg a.mgr = .ok () s' ∧ (∀ p, (s'.cells p).live = true ↔ p < 2) ∧ s'.pool.total = 2 ∧
      (∀ p, 2 ≤ p → (a.mgr.cells p).live = true → p ∈ s'.pool.avail) ∧
      ∀ v k, v < a.mgr.nvars → k ≤ (s'.tabs v).mask → (s'.tabs v).slots k = none := by
  obtain ⟨s', b1, b2, b3, b4, b5⟩ := destroy_aux hR.good (.inr ⟨Use.ordered_iff.2 rfl, fun p => List.count_eq_zero.2 fun hp => by cases hn _ hp⟩)
  exact ⟨s', b1, b2, b3, fun p h2 hl => b4 p h2 ((hR.good.pool.live p).1 hl).1, b5⟩

/-- C55 for release builds: the same, for every discipline and also if handles are left. -/
theorem C55_destroy_release_partial (hnd : cfg.ndebug = true) (hR : Reachable cfg u a) :
    ∃ s', destroyMgr cfg a.mgr = .ok () s' ∧ (∀ p, (s'.cells p).live = true ↔ p < 2) ∧ s'.pool.total = 2 ∧
      (∀ p, 2 ≤ p → (a.mgr.cells p).live = true → p ∈ s'.pool.avail) ∧
      ∀ v k, v < a.mgr.nvars → k ≤ (s'.tabs v).mask → (s'.tabs v).slots k = none := by
  obtain ⟨s', b1, b2, b3, b4, b5⟩ := destroy_aux hR.good (.inl hnd)
  exact ⟨s', b1, b2, b3, fun p h2 hl => b4 p h2 ((hR.good.pool.live p).1 hl).1, b5⟩

end

/-- The hypotheses of `C55_destroy_partial` are met by a manager with four nodes of garbage on three variables. -/
def endState (nd : Bool) : Api :=
  stateAfter (envOf nd) .ordered [.call (.projection 0) [], .call (.projection 1) [], .call .and [0, 1], .call (.projection 2) [],
    .drop 3, .drop 0, .drop 1, .drop 2]

example : ∀ nd, Reachable (envOf nd) .ordered (endState nd) ∧ (∀ o ∈ (endState nd).hs, o = none) ∧ (endState nd).mgr.pool.total = 6 := by
  intro nd
  refine ⟨stateAfter_reachable _ _ _, ?_, ?_⟩ <;> (cases nd <;> decide +kernel)

/-- A parity history: x0 xor x1, all handles dropped. -/
def xorEnd : Api :=
  stateAfter (envOf false) .parity [.call (.projection 0) [], .call (.projection 1) [], .call .xor [0, 1], .drop 0, .drop 1, .drop 2]

/-- The full C55 is false: in debug builds the destructor of a manager in which `xor_rec(x0, x1)` was computed fails an assert although no handle is
left, because `xor_rec` puts the larger variable on top and variables are released in increasing order. -/
theorem C55_refuted : ∃ a, Reachable (envOf false) .parity a ∧ (∀ o ∈ a.hs, o = none) ∧ destroyMgr (envOf false) a.mgr = .assertFail :=
  ⟨xorEnd, stateAfter_reachable _ _ _, by decide +kernel, failB_sound (by decide +kernel)⟩

end LBDD
