import Verif.Props.Query
/-!
# C54: the two largest variable numbers

`bdd_mgr` accepts variable numbers below 2^41 (`assert(vars.size() < maxvarsize)`), but marks the sinks by the numbers 2^41-2 and
2^41-1. A node of one of these two variables is taken for a sink.
-/
namespace LBDD
section
variable {cfg : Cfg}

/-- Adding variables changes only their number and gives the new ones an empty table. -/
theorem addVariables_run : ∀ (n : Nat) (s : Mgr), s.nvars + n ≤ 2 ^ 41 → ∃ s', addVariables cfg n s = .ok () s' ∧ s'.nvars = s.nvars + n ∧
    s'.cells = s.cells ∧ s'.pool = s.pool ∧ s'.marks = s.marks ∧ s'.rngPos = s.rngPos ∧
    (∀ v, s.nvars ≤ v → v < s.nvars + n → s'.tabs v = ⟨63, 64, 0, 64, fun _ => none⟩) ∧ (∀ v, v < s.nvars → s'.tabs v = s.tabs v)
  | 0, s, _ => ⟨s, rfl, rfl, rfl, rfl, rfl, rfl, fun v h1 h2 => by omega, fun _ _ => rfl⟩
  | n + 1, s, h => by
    have h0 : addVariable cfg s = .ok s.nvars
        { s with nvars := s.nvars + 1, tabs := upd s.tabs s.nvars ⟨63, 64, 0, 64, fun _ => none⟩ } := by
      unfold addVariable
      rw [M.get_bind_apply, M.assert_bind_apply (by simp; omega)]
      rfl
    obtain ⟨s', e, h1, h2, h3, h4, h5, h6, h7⟩ := addVariables_run n
      { s with nvars := s.nvars + 1, tabs := upd s.tabs s.nvars ⟨63, 64, 0, 64, fun _ => none⟩ } (by simp only; omega)
    refine ⟨s', ?_, ?_, h2, h3, h4, h5, ?_, ?_⟩
    · simp only [addVariables]
      rw [M.bind_ok h0]; exact e
    · rw [h1]; simp only; omega
    · intro v g1 g2
      rcases Nat.lt_or_ge s.nvars v with g | g
      · exact h6 v (by simp only; omega) (by simp only; omega)
      · have : v = s.nvars := by omega
        rw [h7 v (by simp only; omega)]
        simp only
        rw [this, upd_same]
    · intro v g
      rw [h7 v (by simp only; omega)]
      exact upd_ne _ _ (by omega)

/-- The first node of a variable of a manager without inner nodes. -/
theorem uniqueFind_first {s : Mgr} {v l h : Nat} (hv : v < s.nvars) (hm : v < 2 ^ 41) (ht : s.tabs v = ⟨63, 64, 0, 64, fun _ => none⟩)
    (hp : s.pool = ⟨1, 2, [], 2⟩) (hl : l ≠ h) : ∃ s', uniqueFind cfg v l h s = .ok 2 s' ∧ s'.nvars = s.nvars ∧
      (s'.cells 2).lo = l ∧ (s'.cells 2).hi = h ∧ (s'.cells 2).index = v ∧ (s'.cells 2).live = true := by
  have and63 : ∀ n : Nat, n &&& 63 < 64 := fun n => Nat.lt_of_le_of_lt Nat.and_le_right (by omega)
  have hlook : tableLookup s.cells (s.tabs v) l h = .ok none := by
    rw [ht]
    unfold tableLookup
    simp only [probeKey]
    rw [if_neg (by have := and63 (hashCode s.cells l h); omega)]
  unfold uniqueFind
  rw [M.get_bind_apply, if_neg (by omega)]
  simp only [uniqueFindAux]
  rw [if_neg hl, M.get_bind_apply, M.assert_bind_apply (by rw [ht]; simp)]
  rw [hlook, M.bind_ok (show (M.lift (.ok none) : M Mgr (Option Nat)) s = .ok none s from rfl)]
  simp only
  rw [M.bind_ok (show setTab v { s.tabs v with timer := (s.tabs v).timer + 1 } s =
    .ok () { s with tabs := upd s.tabs v { s.tabs v with timer := (s.tabs v).timer + 1 } } from rfl)]
  rw [if_neg (by rw [ht]; simp)]
  unfold insertNode
  have hg : ∀ s1 : Mgr, s1.tabs v = ⟨63, 64, 1, 64, fun _ => none⟩ → growIfNeeded cfg v s1 = .ok () s1 := by
    intro s1 h1
    unfold growIfNeeded
    rw [M.get_bind_apply, if_neg (by rw [h1]; decide)]
    rfl
  rw [M.bind_ok (hg _ (by simp only [upd_same, ht]))]
  rw [M.bind_ok (show reserveNode _ = .ok 2 { s with
    tabs := upd s.tabs v { s.tabs v with timer := (s.tabs v).timer + 1 }, pool := ⟨1, 3, [], 3⟩ } by
      unfold reserveNode; simp only [hp, Pool.reserve]; rfl)]
  have hi : ∀ s1 : Mgr, ∃ s2, initNewNode cfg 2 v l h s1 = .ok () s2 ∧ s2.nvars = s1.nvars ∧ s2.tabs = s1.tabs ∧
      s2.cells 2 = ⟨l, h, v, cfg.rng s1.rngPos, 0, true⟩ := by
    intro s1
    unfold initNewNode
    rw [M.assert_bind_apply (by simp; omega)]
    exact ⟨_, rfl, rfl, rfl, by simp only [upd_same]⟩
  obtain ⟨s2, e2, n2, t2, c2⟩ := hi { s with
    tabs := upd s.tabs v { s.tabs v with timer := (s.tabs v).timer + 1 }, pool := ⟨1, 3, [], 3⟩ }
  have t2' : s2.tabs v = ⟨63, 64, 1, 64, fun _ => none⟩ := by rw [t2]; simp only [upd_same, ht]
  have hf : ∀ n, nextFreeSlot (s2.tabs v) n = .ok (n &&& 63) := by
    intro n
    rw [t2']
    unfold nextFreeSlot
    simp only [probeFree]
    rw [if_neg (by have := and63 n; omega)]
  rw [M.bind_ok e2, M.get_bind_apply]
  rw [M.assert_bind_apply (by rw [t2']; simp), hf]
  exact ⟨_, rfl, n2, by simp only [c2], by simp only [c2], by simp only [c2], by simp only [c2]⟩

/-- C54 is false for the two largest accepted variable numbers: on a fresh manager `projection(v)` returns an inner node whose variable is `v`,
but `evaluate` takes it for a sink. Without asserts it is constant (true for 2^41-2, false for 2^41-1), with asserts every use of it aborts. -/
theorem C54_refuted (v : Nat) (hv : v = 2 ^ 41 - 2 ∨ v = 2 ^ 41 - 1) : v < 2 ^ 41 ∧
    ∃ p s', projection cfg v (Mgr.init cfg) = .ok p s' ∧ 2 ≤ p ∧ (s'.cells p).index = v ∧ s'.nvars = v + 1 ∧
      (cfg.ndebug = true → isTerm cfg p s' = .ok true s' ∧ ∀ x, evaluate cfg s' p x = .ok (decide (v = 2 ^ 41 - 2)) ()) ∧
      (cfg.ndebug = false → isTerm cfg p s' = .assertFail ∧ ∀ x, evaluate cfg s' p x = .assertFail) := by
  refine ⟨by omega, ?_⟩
  have n0 : (Mgr.init cfg).nvars = 0 := rfl
  obtain ⟨s1, e1, a1, a2, a3, a4, a5, a6, _⟩ := addVariables_run (cfg := cfg) (v + 1) (Mgr.init cfg) (by omega)
  obtain ⟨s', e, b1, b2, b3, b4, b5⟩ := uniqueFind_first (cfg := cfg) (s := s1) (v := v) (l := botId) (h := topId) (by omega) (by omega)
    (a6 v (by omega) (by omega)) (by rw [a3]; rfl) (by decide)
  have hE : ensureVar cfg v (Mgr.init cfg) = .ok () s1 := by
    unfold ensureVar
    rw [M.get_bind_apply, n0]
    exact e1
  have hx : v = topsinkIndex ∨ v = botsinkIndex := hv
  have hlh : ((s'.cells 2).lo == (s'.cells 2).hi) = false := by rw [b2, b3]; rfl
  have hi : ((s'.cells 2).index == topsinkIndex || (s'.cells 2).index == botsinkIndex) = true := by
    rw [b4]; simpa using hx
  refine ⟨2, s', ?_, by omega, b4, by omega, ?_, ?_⟩
  · unfold projection
    rw [M.bind_ok hE]; exact e
  · intro hnd
    have et : ∀ q, isTop cfg q s' = .ok ((s'.cells q).index == topsinkIndex) s' := by
      intro q; unfold isTop; rw [M.get_bind_apply, hnd]; rfl
    have eb : ∀ q, isBot cfg q s' = .ok ((s'.cells q).index == botsinkIndex) s' := by
      intro q; unfold isBot; rw [M.get_bind_apply, hnd]; rfl
    constructor
    · unfold isTerm
      rw [M.bind_ok (et 2)]
      cases h : (s'.cells 2).index == topsinkIndex
      · rw [h] at hi
        simp only [Bool.false_or] at hi
        simp only [Bool.false_eq_true, if_false]
        rw [eb, hi]
      · rfl
    · intro x
      unfold evaluate fuel1
      simp only [evaluateAux, hnd, b4, Bool.not_true, Bool.false_and, Bool.false_eq_true, if_false]
      rcases hx with rfl | rfl
      · rw [if_neg (by unfold topsinkIndex botsinkIndex; omega), if_pos rfl]
        rfl
      · rw [if_pos rfl]
        rw [decide_eq_false (by unfold botsinkIndex; omega)]
  · intro hnd
    constructor
    · unfold isTerm isTop
      show M.bind _ _ s' = _
      unfold M.bind
      rw [M.get_bind_apply]
      simp only [hi, hlh, hnd]
      rfl
    · intro x
      unfold evaluate fuel1
      simp only [evaluateAux, hi, hlh, hnd]
      rfl
end
end LBDD
