import Verif.Proof.GcTotal
/-! The loop bounds in the model of the collector are not artificial: more fuel never changes the outcome. -/
namespace LBDD

/-- Weight of a slot: an empty slot can still be filled, a dead node can still be unlinked. -/
def slotW (cells : Nat → Cell) : Option Nat → Nat
  | none => 1
  | some p => if (cells p).xref ≤ 0 then 2 else 0

/-- Number of iterations the inner loop of `remove_dead_nodes` can still make. -/
def tableW (cells : Nat → Cell) (sl : Nat → Option Nat) : Nat → Nat
  | 0 => 0
  | n + 1 => tableW cells sl n + slotW cells (sl n)

theorem tableW_le (cells : Nat → Cell) (sl : Nat → Option Nat) (n : Nat) : tableW cells sl n ≤ 2 * n := by
  induction n with
  | zero => exact Nat.le_refl _
  | succ n ih =>
    have : slotW cells (sl n) ≤ 2 := by unfold slotW; split <;> (try split) <;> omega
    simp only [tableW]; omega

theorem tableW_upd (cells : Nat → Cell) (sl : Nat → Option Nat) (o : Option Nat) {i n : Nat} (h : i < n) :
    tableW cells (upd sl i o) n + slotW cells (sl i) = tableW cells sl n + slotW cells o := by
  have outside : ∀ n, n ≤ i → tableW cells (upd sl i o) n = tableW cells sl n := by
    intro n
    induction n with
    | zero => intro _; rfl
    | succ n ih =>
      intro hn
      simp only [tableW]
      rw [ih (by omega), upd_ne _ _ (by omega)]
  induction n with
  | zero => omega
  | succ n ih =>
    simp only [tableW]
    by_cases e : i = n
    · subst e
      rw [outside i (Nat.le_refl _), upd_same]
      omega
    · rw [upd_ne _ _ (Ne.symm e)]
      have := ih (by omega)
      omega

theorem probeFree_inv {t : VarTable} : ∀ (n l k : Nat), probeFree t n l = .ok k → k ≤ t.mask ∧ t.slots k = none := by
  intro n
  induction n with
  | zero => intro l k e; cases e
  | succ n ih =>
    intro l k e
    simp only [probeFree] at e
    split at e
    · cases e
    · cases hs : t.slots (l &&& t.mask) with
      | none => rw [hs] at e; cases e; exact ⟨Nat.and_le_right, hs⟩
      | some q => rw [hs] at e; exact ih _ _ e

/-- The inner loop of `remove_dead_nodes` never needs more iterations than the weight of the table. -/
theorem rdInner_weight {v : Nat} : ∀ (n m j : Nat) (s : Mgr), tableW s.cells (s.tabs v).slots ((s.tabs v).mask + 1) < n →
    tableW s.cells (s.tabs v).slots ((s.tabs v).mask + 1) < m → rdInner v n j s = rdInner v m j s := by
  intro n
  induction n with
  | zero => intro m j s h; omega
  | succ n ih =>
    intro m j s hn hm
    match m, hm with
    | m + 1, hm =>
    unfold rdInner
    rw [M.get_bind_apply, M.get_bind_apply]
    split
    · rfl
    · have hjj : j &&& (s.tabs v).mask < (s.tabs v).mask + 1 := Nat.lt_succ_of_le Nat.and_le_right
      cases hs : (s.tabs v).slots (j &&& (s.tabs v).mask) with
      | none => rfl
      | some p =>
        dsimp only
        by_cases hx : (s.cells p).xref ≤ 0
        · rw [if_pos hx, if_pos hx]
          have hw := tableW_upd s.cells (s.tabs v).slots none hjj
          rw [hs] at hw
          simp only [slotW, if_pos hx] at hw
          let t1 : VarTable := { s.tabs v with slots := upd (s.tabs v).slots (j &&& (s.tabs v).mask) none }
          let s1 : Mgr := { s with tabs := upd s.tabs v t1 }
          let s2 : Mgr := { s1 with tabs := upd s1.tabs v { s1.tabs v with free := (s1.tabs v).free + 1 } }
          have h2 : (s2.tabs v).slots = upd (s.tabs v).slots (j &&& (s.tabs v).mask) none := by simp [s2, s1, t1]
          have h3 : (s2.tabs v).mask = (s.tabs v).mask := by simp [s2, s1, t1]
          show rdInner v n (j + 1) s2 = rdInner v m (j + 1) s2
          exact ih m (j + 1) s2 (by rw [h2, h3]; show tableW s.cells _ _ < _; omega) (by rw [h2, h3]; show tableW s.cells _ _ < _; omega)
        · rw [if_neg hx, if_neg hx]
          split
          · rfl
          · cases hf : nextFreeSlot (s.tabs v) (hashCode s.cells (s.cells p).lo (s.cells p).hi) with
            | error e => cases e <;> rfl
            | ok k =>
              obtain ⟨k1, k2⟩ := probeFree_inv _ _ _ hf
              have hw := tableW_upd s.cells (s.tabs v).slots (some p) (i := k) (n := (s.tabs v).mask + 1) (Nat.lt_succ_of_le k1)
              rw [k2] at hw
              simp only [slotW, if_neg hx] at hw
              let s2 : Mgr := { s with tabs := upd s.tabs v { s.tabs v with slots := upd (s.tabs v).slots k (some p) } }
              have h2 : (s2.tabs v).slots = upd (s.tabs v).slots k (some p) := by simp [s2]
              have h3 : (s2.tabs v).mask = (s.tabs v).mask := by simp [s2]
              show rdInner v n (j + 1) s2 = rdInner v m (j + 1) s2
              exact ih m (j + 1) s2 (by rw [h2, h3]; show tableW s.cells _ _ < _; omega) (by rw [h2, h3]; show tableW s.cells _ _ < _; omega)

/-- The bound in `rdOuter` on the iterations of the inner loop does not cut any run short: every larger bound gives the same outcome. -/
theorem rdInner_fuel {v m j : Nat} {s : Mgr} (hm : 3 * ((s.tabs v).mask + 1) + 1 ≤ m) :
    rdInner v m j s = rdInner v (3 * ((s.tabs v).mask + 1) + 1) j s := by
  have := tableW_le s.cells (s.tabs v).slots ((s.tabs v).mask + 1)
  exact rdInner_weight _ _ _ _ (by omega) (by omega)

/-- `next_free_slot` that has seen all slots occupied never returns. -/
theorem probeFree_stuck {t : VarTable} {k l : Nat} (hk : t.mask + 1 = 2 ^ k) (hc : t.mask + 1 ≤ t.cap)
    (h : probeFree t (t.mask + 1) l = .error .hang) : ∀ n l', probeFree t n l' = .error .hang := by
  have hfull : ∀ i, i ≤ t.mask → t.slots i ≠ none := by
    intro i hi hn
    obtain ⟨d, hd⟩ : ∃ d, d < t.mask + 1 ∧ (l + d) % (t.mask + 1) = i := by
      refine ⟨(i + (t.mask + 1) - l % (t.mask + 1)) % (t.mask + 1), Nat.mod_lt _ (by omega), ?_⟩
      have h1 := Nat.mod_lt l (show 0 < t.mask + 1 by omega)
      rw [Nat.add_mod, Nat.mod_mod, ← Nat.add_mod]
      have h3 : l % (t.mask + 1) + (t.mask + 1) * (l / (t.mask + 1)) = l := Nat.mod_add_div ..
      have : l + (i + (t.mask + 1) - l % (t.mask + 1)) = i + (t.mask + 1) * (l / (t.mask + 1) + 1) := by
        rw [Nat.mul_add]; omega
      rw [this, Nat.add_mul_mod_self_left, Nat.mod_eq_of_lt (by omega)]
    obtain ⟨d', _, e, _⟩ := probeFree_ok hk hc (t.mask + 1) l ⟨d, hd.1, by rw [hd.2]; exact hn⟩
    rw [e] at h; cases h
  intro n
  induction n with
  | zero => intro l'; rfl
  | succ n ih =>
    intro l'
    have hle : l' &&& t.mask ≤ t.mask := Nat.and_le_right
    simp only [probeFree]
    rw [if_neg (by omega)]
    cases hs : t.slots (l' &&& t.mask) with
    | none => exact absurd hs (hfull _ hle)
    | some q => exact ih _

/-- Nothing happens to a table without dead nodes. -/
theorem rdOuter_none {cfg : Cfg} {v : Nat} {s : Mgr} (hc : (s.tabs v).mask + 1 ≤ (s.tabs v).cap)
    (h : ∀ i p, i ≤ (s.tabs v).mask → (s.tabs v).slots i = some p → 0 < (s.cells p).xref) :
    ∀ (n k : Nat), (s.tabs v).mask + 2 ≤ n + k → 1 ≤ n → rdOuter cfg v n k s = .ok () s := by
  intro n
  induction n with
  | zero => intro k _ h1; omega
  | succ n ih =>
    intro k hn _
    unfold rdOuter
    rw [M.get_bind_apply]
    by_cases hk : (s.tabs v).mask < k
    · rw [if_pos hk]; rfl
    · rw [if_neg hk, if_neg (by omega)]
      cases hs : (s.tabs v).slots k with
      | none => exact ih (k + 1) (by omega) (by omega)
      | some p =>
        dsimp only
        have := h k p (by omega) hs
        rw [if_neg (by omega)]
        exact ih (k + 1) (by omega) (by omega)

end LBDD
