import Verif.Model.Gc
import Verif.Proof.Unique
/-! Freeing nodes: what any run of the collector that returns does to the heap, whatever the layout of the tables. -/
namespace LBDD

def decX (c : Nat → Cell) (p : Nat) : Nat → Cell := upd c p { c p with xref := (c p).xref - 1 }

theorem decX_eq (c : Nat → Cell) (p q : Nat) :
    (decX c p q).lo = (c q).lo ∧ (decX c p q).hi = (c q).hi ∧ (decX c p q).index = (c q).index ∧
    (decX c p q).hashKey = (c q).hashKey ∧ (decX c p q).live = (c q).live ∧
    (decX c p q).xref = (c q).xref - (if p = q then 1 else 0) := by
  unfold decX upd
  by_cases h : q = p
  · subst h; simp
  · simp [h, Ne.symm h]

/-- The cells after `free_node(p)`. -/
def freedCells (c : Nat → Cell) (p : Nat) : Nat → Cell :=
  let c2 := decX (decX c (c p).lo) (c p).hi
  upd c2 p { c2 p with live := false }

theorem freedCells_eq (c : Nat → Cell) (p q : Nat) :
    (freedCells c p q).lo = (c q).lo ∧ (freedCells c p q).hi = (c q).hi ∧ (freedCells c p q).index = (c q).index ∧
    (freedCells c p q).hashKey = (c q).hashKey ∧ ((freedCells c p q).live = true ↔ (c q).live = true ∧ q ≠ p) ∧
    (freedCells c p q).xref = (c q).xref - (if (c p).lo = q then 1 else 0) - (if (c p).hi = q then 1 else 0) := by
  obtain ⟨a1, a2, a3, a4, a5, a6⟩ := decX_eq c (c p).lo q
  obtain ⟨b1, b2, b3, b4, b5, b6⟩ := decX_eq (decX c (c p).lo) (c p).hi q
  unfold freedCells
  by_cases h : q = p
  · subst h
    simp only [upd_same, b1, b2, b3, b4, b6, a1, a2, a3, a4, a6]
    simp
  · simp only [upd_ne _ _ h, b1, b2, b3, b4, b5, b6, a1, a2, a3, a4, a5, a6]
    simp [h]

theorem arcsTo_pos {c : Nat → Cell} {p q n : Nat} (h2 : 2 ≤ q) (hl : (c q).live = true) (hn : q < n)
    (h : (c q).lo = p ∨ (c q).hi = p) : 0 < arcsTo c p n := by
  induction n with
  | zero => omega
  | succ n ih =>
    simp only [arcsTo]
    by_cases e : q = n
    · subst e
      rw [if_pos ⟨h2, hl⟩]
      rcases h with h | h <;> rw [if_pos h] <;> omega
    · have := ih (by omega)
      omega

theorem arcsTo_pos_inv {c : Nat → Cell} {p n : Nat} (h : 0 < arcsTo c p n) :
    ∃ q, 2 ≤ q ∧ q < n ∧ (c q).live = true ∧ ((c q).lo = p ∨ (c q).hi = p) := by
  induction n with
  | zero => simp [arcsTo] at h
  | succ n ih =>
    simp only [arcsTo] at h
    by_cases e : 2 ≤ n ∧ (c n).live = true
    · by_cases e1 : (c n).lo = p
      · exact ⟨n, e.1, by omega, e.2, Or.inl e1⟩
      by_cases e2 : (c n).hi = p
      · exact ⟨n, e.1, by omega, e.2, Or.inr e2⟩
      rw [if_pos e, if_neg e1, if_neg e2] at h
      obtain ⟨q, h1, h2, h3, h4⟩ := ih (by omega)
      exact ⟨q, h1, by omega, h3, h4⟩
    · rw [if_neg e] at h
      obtain ⟨q, h1, h2, h3, h4⟩ := ih (by omega)
      exact ⟨q, h1, by omega, h3, h4⟩

theorem arcsTo_remove {c c' : Nat → Cell} {p q n : Nat} (h2 : 2 ≤ p) (hpn : p < n) (hlive : (c p).live = true)
    (hd : (c' p).live = false) (h : ∀ i, i ≠ p → (c' i).live = (c i).live ∧ (c' i).lo = (c i).lo ∧ (c' i).hi = (c i).hi) :
    arcsTo c q n = arcsTo c' q n + (if (c p).lo = q then 1 else 0) + (if (c p).hi = q then 1 else 0) :=
  arcsTo_insert h2 hpn hd hlive (fun i hi => by obtain ⟨a, b, d⟩ := h i hi; exact ⟨a.symm, b.symm, d.symm⟩)

/-- The heap is closed under arcs and all reference counts are exact (nothing is said about tables or the memo cache). -/
structure HeapOk (refs : Nat → Nat) (s : Mgr) : Prop where
  sink : (s.cells 0).index = botsinkIndex ∧ (s.cells 1).index = topsinkIndex
  child : ∀ p, 2 ≤ p → (s.cells p).live = true → (s.cells (s.cells p).lo).live = true ∧ (s.cells (s.cells p).hi).live = true
  bound : ∀ p, (s.cells p).live = true → p < s.pool.hw
  count : ∀ p, (s.cells p).live = true →
    (s.cells p).xref = refs p + arcsTo s.cells p s.pool.hw + (if p < 2 then 1 else 0)
  held : ∀ p, 0 < refs p → (s.cells p).live = true
  avail : ∀ p, p ∈ s.pool.avail → (s.cells p).live = false

theorem Inv.heapOk {cfg : Cfg} {md : Md} {refs : Nat → Nat} {s : Mgr} (h : Inv cfg md refs s) : HeapOk refs s where
  sink := ⟨h.bot.1, h.top.1⟩
  child p h2 hl := ⟨h.lo_live h2 hl, h.hi_live h2 hl⟩
  bound p hl := ((h.pool.live p).1 hl).1
  count := h.ref.count
  held := h.ref.live
  avail p hp := by
    cases e : (s.cells p).live with
    | false => rfl
    | true => exact absurd hp ((h.pool.live p).1 e).2

/-- What the collector does to the heap: some nodes are freed, the others keep their contents. -/
structure Frees (s s' : Mgr) : Prop where
  same : ∀ q, (s'.cells q).lo = (s.cells q).lo ∧ (s'.cells q).hi = (s.cells q).hi ∧ (s'.cells q).index = (s.cells q).index ∧
    (s'.cells q).hashKey = (s.cells q).hashKey
  live : ∀ q, (s'.cells q).live = true → (s.cells q).live = true
  hw : s'.pool.hw = s.pool.hw
  nvars : s'.nvars = s.nvars
  rng : s'.rngPos = s.rngPos

theorem Frees.refl (s : Mgr) : Frees s s := ⟨fun _ => ⟨rfl, rfl, rfl, rfl⟩, fun _ h => h, rfl, rfl, rfl⟩

theorem Frees.trans {a b c : Mgr} (h1 : Frees a b) (h2 : Frees b c) : Frees a c where
  same q := by
    obtain ⟨a1, a2, a3, a4⟩ := h1.same q
    obtain ⟨b1, b2, b3, b4⟩ := h2.same q
    exact ⟨b1.trans a1, b2.trans a2, b3.trans a3, b4.trans a4⟩
  live q h := h1.live q (h2.live q h)
  hw := h2.hw.trans h1.hw
  nvars := h2.nvars.trans h1.nvars
  rng := h2.rng.trans h1.rng

theorem Frees.reaches {s s' : Mgr} (h : Frees s s') {p q : Nat} (hr : Reaches s'.cells p q) : Reaches s.cells p q := by
  induction hr with
  | refl => exact .refl _
  | @lo p q h2 hl _ ih =>
    rw [(h.same p).1] at ih
    exact .lo h2 (h.live p hl) ih
  | @hi p q h2 hl _ ih =>
    rw [(h.same p).2.1] at ih
    exact .hi h2 (h.live p hl) ih

/-- Every node reachable from a handle is kept. -/
def Keeps (refs : Nat → Nat) (s s' : Mgr) : Prop := ∀ h q, 0 < refs h → Reaches s.cells h q → (s'.cells q).live = true

theorem reaches_of_prefix {s s' : Mgr} (hf : Frees s s') {p q : Nat}
    (hr : Reaches s.cells p q) (hk : ∀ q, Reaches s.cells p q → (s'.cells q).live = true) : Reaches s'.cells p q := by
  induction hr with
  | refl => exact .refl _
  | @lo p q h2 hl hr ih =>
    refine .lo h2 (hk _ (.refl _)) ?_
    rw [(hf.same p).1]
    exact ih (fun q hq => hk q (.lo h2 hl hq))
  | @hi p q h2 hl hr ih =>
    refine .hi h2 (hk _ (.refl _)) ?_
    rw [(hf.same p).2.1]
    exact ih (fun q hq => hk q (.hi h2 hl hq))

theorem Keeps.reaches {refs : Nat → Nat} {s s' : Mgr} (hf : Frees s s') (hk : Keeps refs s s') {h q : Nat} (hh : 0 < refs h)
    (hr : Reaches s.cells h q) : Reaches s'.cells h q := reaches_of_prefix hf hr (fun q hq => hk h q hh hq)

/-- One run of (a part of) the collector, seen from the heap. -/
structure GcRun (refs : Nat → Nat) (s s' : Mgr) : Prop where
  ok : HeapOk refs s'
  frees : Frees s s'
  keeps : Keeps refs s s'

theorem HeapOk.reach_live {refs : Nat → Nat} {s : Mgr} (h : HeapOk refs s) {p q : Nat} (hl : (s.cells p).live = true)
    (hr : Reaches s.cells p q) : (s.cells q).live = true := by
  induction hr with
  | refl => exact hl
  | lo h2 hl _ ih => exact ih (h.child _ h2 hl).1
  | hi h2 hl _ ih => exact ih (h.child _ h2 hl).2

theorem GcRun.refl {refs : Nat → Nat} {s : Mgr} (h : HeapOk refs s) : GcRun refs s s :=
  ⟨h, .refl _, fun p _ hp hr => h.reach_live (h.held p hp) hr⟩

theorem GcRun.trans {refs : Nat → Nat} {a b c : Mgr} (h1 : GcRun refs a b) (h2 : GcRun refs b c) : GcRun refs a c :=
  ⟨h2.ok, h1.frees.trans h2.frees, fun h q hh hr => h2.keeps h q hh (h1.keeps.reaches h1.frees hh hr)⟩

/-- Parts of the state the heap does not include. -/
theorem GcRun.congr {refs : Nat → Nat} {s s' : Mgr} (h : HeapOk refs s) (hc : s'.cells = s.cells) (hp : s'.pool = s.pool)
    (hn : s'.nvars = s.nvars) (hg : s'.rngPos = s.rngPos) : GcRun refs s s' := by
  have hok : HeapOk refs s' := ⟨by rw [hc]; exact h.sink, by rw [hc]; exact h.child, by rw [hc, hp]; exact h.bound,
    by rw [hc, hp]; exact h.count, by rw [hc]; exact h.held, by rw [hc, hp]; exact h.avail⟩
  refine ⟨hok, ⟨by rw [hc]; exact fun _ => ⟨rfl, rfl, rfl, rfl⟩, by rw [hc]; exact fun _ h => h, by rw [hp], hn, hg⟩, ?_⟩
  intro p q hp hr
  rw [hc]
  exact h.reach_live (h.held p hp) hr

/-- Nothing that is reachable from a handle has reference count 0. -/
theorem HeapOk.reach_pos {refs : Nat → Nat} {s : Mgr} (h : HeapOk refs s) {p q : Nat} (hh : 0 < refs p)
    (hr : Reaches s.cells p q) : 0 < (s.cells q).xref := by
  have aux : ∀ p q, Reaches s.cells p q → (s.cells p).live = true → 0 < (s.cells p).xref → 0 < (s.cells q).xref := by
    intro p q hr
    induction hr with
    | refl => intro _ hx; exact hx
    | @lo p q h2 hl _ ih =>
      intro _ _
      have hl' := (h.child _ h2 hl).1
      refine ih hl' ?_
      have := h.count _ hl'
      have := arcsTo_pos (c := s.cells) (p := (s.cells p).lo) h2 hl (h.bound _ hl) (Or.inl rfl)
      split at * <;> omega
    | @hi p q h2 hl _ ih =>
      intro _ _
      have hl' := (h.child _ h2 hl).2
      refine ih hl' ?_
      have := h.count _ hl'
      have := arcsTo_pos (c := s.cells) (p := (s.cells p).hi) h2 hl (h.bound _ hl) (Or.inr rfl)
      split at * <;> omega
  have hl := h.held p hh
  refine aux p q hr hl ?_
  have := h.count p hl
  split at * <;> omega

theorem HeapOk.dead {refs : Nat → Nat} {s : Mgr} (h : HeapOk refs s) {p : Nat} (hl : (s.cells p).live = true)
    (hx : (s.cells p).xref ≤ 0) : 2 ≤ p ∧ refs p = 0 ∧ (∀ q, 2 ≤ q → (s.cells q).live = true → (s.cells q).lo ≠ p ∧ (s.cells q).hi ≠ p) := by
  have hc := h.count p hl
  have h2 : 2 ≤ p := by
    by_cases h2 : 2 ≤ p
    · exact h2
    · rw [if_pos (by omega)] at hc; omega
  rw [if_neg (by omega)] at hc
  refine ⟨h2, by omega, fun q q2 ql => ⟨fun e => ?_, fun e => ?_⟩⟩
  · have := arcsTo_pos (p := p) q2 ql (h.bound _ ql) (Or.inl e); omega
  · have := arcsTo_pos (p := p) q2 ql (h.bound _ ql) (Or.inr e); omega

/-- The state after `free_node(p)`. -/
def freedState (s : Mgr) (p : Nat) : Mgr := { s with cells := freedCells s.cells p, pool := s.pool.release p }

theorem freedState_run {refs : Nat → Nat} {s : Mgr} (h : HeapOk refs s) {p : Nat} (hl : (s.cells p).live = true)
    (hx : (s.cells p).xref ≤ 0) : GcRun refs s (freedState s p) := by
  obtain ⟨h2, hr, har⟩ := h.dead hl hx
  have hf : Frees s (freedState s p) := by
    refine ⟨?_, ?_, rfl, rfl, rfl⟩
    · intro q
      obtain ⟨a, b, c, d, _⟩ := freedCells_eq s.cells p q
      exact ⟨a, b, c, d⟩
    · intro q hq
      exact ((freedCells_eq s.cells p q).2.2.2.2.1.1 hq).1
  have hlive : ∀ q, ((freedState s p).cells q).live = true ↔ (s.cells q).live = true ∧ q ≠ p :=
    fun q => (freedCells_eq s.cells p q).2.2.2.2.1
  have hpd : ((freedState s p).cells p).live = false := by
    cases e : ((freedState s p).cells p).live with
    | false => rfl
    | true => exact absurd rfl ((hlive p).1 e).2
  have hok : HeapOk refs (freedState s p) := by
    constructor
    · rw [(hf.same 0).2.2.1, (hf.same 1).2.2.1]; exact h.sink
    · intro q q2 hq
      have hq' := (hlive q).1 hq
      obtain ⟨a, b⟩ := h.child q q2 hq'.1
      obtain ⟨a', b'⟩ := har q q2 hq'.1
      rw [(hf.same q).1, (hf.same q).2.1]
      exact ⟨(hlive _).2 ⟨a, a'⟩, (hlive _).2 ⟨b, b'⟩⟩
    · intro q hq
      exact h.bound q ((hlive q).1 hq).1
    · intro q hq
      have hq' := (hlive q).1 hq
      have hc := h.count q hq'.1
      have hx' := (freedCells_eq s.cells p q).2.2.2.2.2
      have harc := arcsTo_remove (q := q) (c' := (freedState s p).cells) h2 (h.bound p hl) hl hpd (fun i hi => by
        refine ⟨?_, (hf.same i).1, (hf.same i).2.1⟩
        rw [Bool.eq_iff_iff, hlive i]
        simp [hi])
      show (freedCells s.cells p q).xref = refs q + arcsTo (freedState s p).cells q s.pool.hw + _
      rw [hx', hc, harc]
      split <;> split <;> split <;> omega
    · intro q hq
      refine (hlive q).2 ⟨h.held q hq, ?_⟩
      rintro rfl
      omega
    · intro q hq
      rcases List.mem_cons.1 (show q ∈ p :: s.pool.avail from hq) with rfl | hq
      · exact hpd
      · have := h.avail q hq
        cases e : ((freedState s p).cells q).live with
        | false => rfl
        | true => rw [((hlive q).1 e).1] at this; cases this
  refine ⟨hok, hf, ?_⟩
  intro q r hq hr'
  refine (hlive r).2 ⟨h.reach_live (h.held q hq) hr', ?_⟩
  rintro rfl
  have := h.reach_pos hq hr'
  omega

/-- `free_node` on a dead node. -/
theorem freeNode_ok {cfg : Cfg} {refs : Nat → Nat} {s : Mgr} (h : HeapOk refs s) {p : Nat} (hl : (s.cells p).live = true)
    (hx : (s.cells p).xref ≤ 0) (hi : (s.cells p).index < topsinkIndex) (hne : (s.cells p).lo ≠ (s.cells p).hi) :
    freeNode cfg p s = .ok () (freedState s p) := by
  obtain ⟨h2, hr, har⟩ := h.dead hl hx
  obtain ⟨ll, lh⟩ := h.child p h2 hl
  have x1 : 0 < (s.cells (s.cells p).lo).xref := by
    have := h.count _ ll
    have := arcsTo_pos (p := (s.cells p).lo) h2 hl (h.bound _ hl) (Or.inl rfl)
    split at * <;> omega
  have x2 : 0 < (s.cells (s.cells p).hi).xref := by
    have := h.count _ lh
    have := arcsTo_pos (p := (s.cells p).hi) h2 hl (h.bound _ hl) (Or.inr rfl)
    split at * <;> omega
  unfold freeNode
  rw [M.get_bind_apply]
  simp only
  rw [if_neg (by simp [hl]; omega)]
  rw [M.assert_bind_apply (by simpa using hx), M.assert_bind_apply (by simpa using x1),
    M.assert_bind_apply (by rw [upd_ne _ _ (Ne.symm hne)]; simpa using x2)]
  rfl

/-- Whenever `free_node` returns it was given a node in use, and the result is the expected one. -/
theorem freeNode_inv {cfg : Cfg} {s s' : Mgr} {p : Nat} (e : freeNode cfg p s = .ok () s') :
    (s.cells p).live = true ∧ (s.cells p).index < topsinkIndex ∧ s' = freedState s p := by
  unfold freeNode at e
  rw [M.get_bind_apply] at e
  simp only at e
  by_cases h : (!(s.cells p).live || topsinkIndex ≤ (s.cells p).index) = true
  · rw [if_pos h] at e; cases e
  · rw [if_neg h] at e
    obtain ⟨_, s1, e1, e⟩ := bind_ok_inv e
    obtain ⟨_, s2, e2, e⟩ := bind_ok_inv e
    obtain ⟨_, s3, e3, e⟩ := bind_ok_inv e
    simp at h
    refine ⟨h.1, by omega, ?_⟩
    cases e
    rfl

end LBDD
