import Verif.Proof.GcRun
import Verif.Proof.GcTotal
import Verif.Proof.GcFuel
/-! What every collection that returns leaves behind, whatever the layout of the tables: clean tables, none of them shrunk. -/
namespace LBDD
section
variable {cfg : Cfg}

/-- A slot is empty or holds a node with a positive reference count. -/
def CleanSlot (c : Nat → Cell) (sl : Nat → Option Nat) (i : Nat) : Prop := ∀ p, sl i = some p → 0 < (c p).xref

theorem CleanSlot.upd_none {c : Nat → Cell} {sl : Nat → Option Nat} {i : Nat} (k : Nat) (h : CleanSlot c sl i) : CleanSlot c (upd sl k none) i := by
  intro p hp
  by_cases e : i = k
  · subst e; rw [upd_same] at hp; cases hp
  · rw [upd_ne _ _ e] at hp; exact h p hp

theorem CleanSlot.upd_some {c : Nat → Cell} {sl : Nat → Option Nat} {i q : Nat} (k : Nat) (h : CleanSlot c sl i) (hq : 0 < (c q).xref) :
    CleanSlot c (upd sl k (some q)) i := by
  intro p hp
  by_cases e : i = k
  · subst e; rw [upd_same] at hp; cases hp; exact hq
  · rw [upd_ne _ _ e] at hp; exact h p hp

theorem upd_id {α : Type} (f : Nat → α) (k : Nat) : upd f k (f k) = f := by
  funext i; unfold upd; split
  · rename_i h; rw [h]
  · rfl

/-- The table `t'` has the size of `t` and stores no node that `t` does not store. -/
structure Thinner (t t' : VarTable) : Prop where
  mask : t'.mask = t.mask
  cap : t'.cap = t.cap
  stored : ∀ i p, i ≤ t.mask → t'.slots i = some p → ∃ j, j ≤ t.mask ∧ t.slots j = some p

theorem Thinner.refl (t : VarTable) : Thinner t t := ⟨rfl, rfl, fun i _ hi hp => ⟨i, hi, hp⟩⟩

theorem Thinner.trans {a b c : VarTable} (h1 : Thinner a b) (h2 : Thinner b c) : Thinner a c where
  mask := h2.mask.trans h1.mask
  cap := h2.cap.trans h1.cap
  stored i p hi hp := by
    obtain ⟨j, hj, e⟩ := h2.stored i p (by rw [h1.mask]; exact hi) hp
    exact h1.stored j p (by rw [h1.mask] at hj; exact hj) e

theorem and_mask_id {k m i : Nat} (hk : m + 1 = 2 ^ k) (hi : i ≤ m) : i &&& m = i := by
  have : m = 2 ^ k - 1 := by omega
  rw [this, Nat.and_two_pow_sub_one_eq_mod, Nat.mod_eq_of_lt (by omega)]

/-- The inner loop, started at `j` and stopping at `r`: all slots from `j` up to and including `r` are clean, and clean slots stay clean. -/
theorem rdInner_clean {v : Nat} : ∀ (n j : Nat) {s s' : Mgr} {r : Nat}, rdInner v n j s = .ok r s' →
    ∃ t', s' = { s with tabs := upd s.tabs v t' } ∧ Thinner (s.tabs v) t' ∧ j ≤ r ∧
      (∀ i, CleanSlot s.cells (s.tabs v).slots i → CleanSlot s.cells t'.slots i) ∧
      ∀ i, j ≤ i → i ≤ r → CleanSlot s.cells t'.slots (i &&& (s.tabs v).mask) := by
  intro n
  induction n with
  | zero => intro j s s' r e; cases e
  | succ n ih =>
    intro j s s' r e
    unfold rdInner at e
    rw [M.get_bind_apply] at e
    split at e
    · cases e
    · cases hs : (s.tabs v).slots (j &&& (s.tabs v).mask) with
      | none =>
        rw [hs] at e
        cases e
        refine ⟨s.tabs v, ?_, .refl _, Nat.le_refl _, fun _ h => h, fun i h1 h2 => ?_⟩
        · rw [upd_id]
        · obtain rfl : i = j := by omega
          intro p hp; rw [hs] at hp; cases hp
      | some p =>
        rw [hs] at e
        dsimp only at e
        have hle : j &&& (s.tabs v).mask ≤ (s.tabs v).mask := Nat.and_le_right
        split at e
        · obtain ⟨_, s1, e1, e⟩ := bind_ok_inv e
          obtain ⟨_, s2, e2, e⟩ := bind_ok_inv e
          cases e1
          cases e2
          obtain ⟨t', h1, h2, h3, h4, h5⟩ := ih _ e
          simp only [upd_same, upd_upd] at h1 h2 h4 h5
          refine ⟨t', h1, Thinner.trans
            (b := { s.tabs v with slots := upd (s.tabs v).slots (j &&& (s.tabs v).mask) none, free := (s.tabs v).free + 1 }) ⟨rfl, rfl, fun i q hi hq => ?_⟩ h2, by omega, fun i hi => h4 i (hi.upd_none _), fun i i1 i2 => ?_⟩
          · refine ⟨i, hi, ?_⟩
            by_cases ei : i = j &&& (s.tabs v).mask
            · simp only [ei, upd_same] at hq; cases hq
            · simpa [upd_ne _ _ ei] using hq
          · by_cases ij : i = j
            · subst ij
              refine h4 _ ?_
              intro q hq
              rw [upd_same] at hq; cases hq
            · exact h5 i (by omega) i2
        · rename_i hx
          split at e
          · cases e
          · obtain ⟨k, s1, e1, e'⟩ := bind_ok_inv e
            obtain ⟨_, s2, e2, e''⟩ := bind_ok_inv e'
            obtain ⟨_, rfl⟩ := lift_ok_inv e1
            cases e2
            obtain ⟨t', h1, h2, h3, h4, h5⟩ := ih _ e''
            simp only [upd_same, upd_upd] at h1 h2 h4 h5
            refine ⟨t', h1, Thinner.trans (b := { s1.tabs v with slots := upd (s1.tabs v).slots k (some p) })
              ⟨rfl, rfl, fun i q hi hq => ?_⟩ h2, by omega,
              fun i hi => h4 i (hi.upd_some _ (by omega)), fun i i1 i2 => ?_⟩
            · by_cases ei : i = k
              · simp only [ei, upd_same] at hq; cases hq
                exact ⟨_, hle, hs⟩
              · exact ⟨i, hi, by simpa [upd_ne _ _ ei] using hq⟩
            · by_cases ij : i = j
              · subst ij
                refine h4 _ ?_
                refine CleanSlot.upd_some _ (fun q hq => ?_) (by omega)
                rw [hs] at hq; cases hq; omega
              · exact h5 i (by omega) i2

/-- The nodes stored in a table belong to its variable, and their children to later ones. -/
def Layered (s : Mgr) : Prop := ∀ v, v < s.nvars → ∀ i p, i ≤ (s.tabs v).mask → (s.tabs v).slots i = some p →
  (s.cells p).index = v ∧ v < (s.cells (s.cells p).lo).index ∧ v < (s.cells (s.cells p).hi).index

/-- One variable is cleaned: nothing changes for the variables before it. -/
structure Cleans (v : Nat) (s s' : Mgr) : Prop where
  frees : Frees s s'
  above : ∀ q, (s.cells q).index ≤ v → (s'.cells q).xref = (s.cells q).xref
  other : ∀ w, w ≠ v → s'.tabs w = s.tabs w
  thin : Thinner (s.tabs v) (s'.tabs v)
  memo : s'.memo = s.memo

theorem Cleans.refl (v : Nat) (s : Mgr) : Cleans v s s := ⟨.refl s, fun _ _ => rfl, fun _ _ => rfl, .refl _, rfl⟩

theorem Cleans.trans {v : Nat} {a b c : Mgr} (h1 : Cleans v a b) (h2 : Cleans v b c) : Cleans v a c where
  frees := h1.frees.trans h2.frees
  above q hq := (h2.above q (by rw [(h1.frees.same q).2.2.1]; exact hq)).trans (h1.above q hq)
  other w hw := (h2.other w hw).trans (h1.other w hw)
  thin := h1.thin.trans h2.thin
  memo := h2.memo.trans h1.memo

theorem Cleans.layered {v : Nat} {s s' : Mgr} (h : Cleans v s s') (hl : Layered s) : Layered s' := by
  intro w hw i p hi hp
  rw [h.frees.nvars] at hw
  rw [(h.frees.same p).1, (h.frees.same p).2.1, (h.frees.same _).2.2.1, (h.frees.same _).2.2.1, (h.frees.same _).2.2.1]
  by_cases e : w = v
  · subst e
    obtain ⟨j, hj, e⟩ := h.thin.stored i p (by rw [← h.thin.mask]; exact hi) hp
    exact hl w hw j p hj e
  · rw [h.other w e] at hi hp
    exact hl w hw i p hi hp

theorem Cleans.clean {v w : Nat} {s s' : Mgr} (h : Cleans v s s') (hl : Layered s) (hw : w < v) (hn : w < s.nvars)
    (hc : ∀ i, i ≤ (s.tabs w).mask → CleanSlot s.cells (s.tabs w).slots i) :
    ∀ i, i ≤ (s'.tabs w).mask → CleanSlot s'.cells (s'.tabs w).slots i := by
  intro i hi p hp
  rw [h.other w (by omega)] at hi hp
  rw [h.above p (by rw [(hl w hn i p hi hp).1]; omega)]
  exact hc i hi p hp

/-- Freeing a node and taking it out of its slot. -/
theorem cleans_free {v k p : Nat} {s : Mgr} (hl : Layered s) (hv : v < s.nvars) (hk : k ≤ (s.tabs v).mask)
    (hs : (s.tabs v).slots k = some p) (t : VarTable)
    (ht : t = { s.tabs v with slots := upd (s.tabs v).slots k none, free := (s.tabs v).free + 1 }) :
    Cleans v s { freedState s p with tabs := upd s.tabs v t } := by
  obtain ⟨_, l2, l3⟩ := hl v hv k p hk hs
  refine ⟨⟨fun q => ?_, fun q hq => ?_, rfl, rfl, rfl⟩, fun q hq => ?_, fun w hw => upd_ne _ _ hw, ?_, rfl⟩
  · obtain ⟨a, b, c, d, _⟩ := freedCells_eq s.cells p q
    exact ⟨a, b, c, d⟩
  · exact ((freedCells_eq s.cells p q).2.2.2.2.1.1 hq).1
  · have := (freedCells_eq s.cells p q).2.2.2.2.2
    show (freedCells s.cells p q).xref = _
    rw [this, if_neg (by rintro rfl; omega), if_neg (by rintro rfl; omega)]
    omega
  · show Thinner _ (upd s.tabs v t v)
    rw [upd_same, ht]
    refine ⟨rfl, rfl, fun i q hi hq => ⟨i, hi, ?_⟩⟩
    by_cases ei : i = k
    · subst ei; simp only [upd_same] at hq; cases hq
    · simpa [upd_ne _ _ ei] using hq

/-- Whatever happens on the way: an outer loop that returns leaves a clean table. -/
theorem rdOuter_clean {v kk : Nat} : ∀ (n k : Nat) {s s' : Mgr}, Layered s → v < s.nvars → (s.tabs v).mask + 1 = 2 ^ kk →
    (∀ i, i < k → i ≤ (s.tabs v).mask → CleanSlot s.cells (s.tabs v).slots i) → rdOuter cfg v n k s = .ok () s' →
    Cleans v s s' ∧ ∀ i, i ≤ (s'.tabs v).mask → CleanSlot s'.cells (s'.tabs v).slots i := by
  intro n
  induction n with
  | zero => intro k s s' _ _ _ _ e; cases e
  | succ n ih =>
    intro k s s' hl hv hm hc e
    unfold rdOuter at e
    rw [M.get_bind_apply] at e
    split at e
    · rename_i hk
      cases e
      exact ⟨.refl _ _, fun i hi => hc i (by omega) hi⟩
    · rename_i hk
      split at e
      · cases e
      · cases hs : (s.tabs v).slots k with
        | none =>
          rw [hs] at e
          refine ih _ hl hv hm (fun i h1 h2 => ?_) e
          by_cases ei : i = k
          · subst ei; intro p hp; rw [hs] at hp; cases hp
          · exact hc i (by omega) h2
        | some p =>
          rw [hs] at e
          dsimp only at e
          split at e
          · rename_i hx
            obtain ⟨_, s1, e1, f1⟩ := bind_ok_inv e
            obtain ⟨_, s2, e2, f2⟩ := bind_ok_inv f1
            obtain ⟨_, s3, e3, f3⟩ := bind_ok_inv f2
            obtain ⟨j, s4, e4, f4⟩ := bind_ok_inv f3
            obtain ⟨_, _, rfl⟩ := freeNode_inv e1
            cases e2
            cases e3
            have hcl := cleans_free hl hv (by omega) hs _ rfl
            obtain ⟨t', g1, g2, g3, g4, g5⟩ := rdInner_clean _ _ e4
            simp only [freedState, upd_same, upd_upd] at g1 g2 g4 g5
            subst g1
            have hcl2 : Cleans v s { freedState s p with tabs := upd s.tabs v t' } := by
              refine hcl.trans ⟨⟨fun _ => ⟨rfl, rfl, rfl, rfl⟩, fun _ h => h, rfl, rfl, rfl⟩, fun _ _ => rfl, fun w hw => ?_, ?_, rfl⟩
              · show upd s.tabs v t' w = upd s.tabs v _ w
                rw [upd_ne _ _ hw, upd_ne _ _ hw]
              · show Thinner (upd s.tabs v _ v) (upd s.tabs v t' v)
                rw [upd_same, upd_same]; exact g2
            have hmk : t'.mask = (s.tabs v).mask := g2.mask
            have hpre : ∀ i, i < j + 1 → i ≤ (upd s.tabs v t' v).mask →
                CleanSlot (freedCells s.cells p) (upd s.tabs v t' v).slots i := by
              intro i i1 i2'
              rw [upd_same] at i2' ⊢
              by_cases ik : i < k
              · refine g4 i ?_
                intro q hq
                rw [upd_ne _ _ (by omega)] at hq
                have hq' := hc i ik (by omega) q hq
                have := hcl.above q (by rw [(hl v hv i q (by omega) hq).1]; omega)
                show 0 < (freedCells s.cells p q).xref
                rw [show (freedCells s.cells p q).xref = _ from this]
                exact hq'
              · by_cases ik2 : i = k
                · subst ik2
                  refine g4 i ?_
                  intro q hq
                  rw [upd_same] at hq; cases hq
                · have := g5 i (by omega) (by omega)
                  rwa [and_mask_id hm (by omega)] at this
            obtain ⟨h1, h2⟩ := ih (j + 1) (hcl2.layered hl) hv (by show (upd s.tabs v t' v).mask + 1 = _; rw [upd_same, hmk, hm]) hpre f4
            exact ⟨hcl2.trans h1, h2⟩
          · rename_i hx
            refine ih _ hl hv hm (fun i h1 h2 => ?_) e
            by_cases ei : i = k
            · subst ei; intro q hq; rw [hs] at hq; cases hq; omega
            · exact hc i (by omega) h2

/-- A table that is tried to be shrunk, with whatever value in its counter of free slots: the new page is asked for size 2. -/
theorem shrinkMask_sparse {t : VarTable} (hm : 127 ≤ t.mask) (hm2 : t.mask < 2 ^ 20) (hodd : t.mask % 2 = 1) (hs : sparse t = true) :
    shrinkMask t ((t.mask + 1) / 2 - 1) ((t.mask + 1) / 2 - 1) = 1 := by
  simp only [sparse, decide_eq_true_eq] at hs
  generalize hn0 : (t.mask + 1) / 2 - 1 = n0
  have h63 : 63 ≤ n0 := by omega
  have hbig : n0 ≤ 8 * sub64 n0 t.free := by
    unfold sub64 at hs ⊢
    have hf : t.free % 2 ^ 64 < 2 ^ 64 := Nat.mod_lt _ (by decide)
    generalize t.free % 2 ^ 64 = f at hs hf
    omega
  obtain ⟨n, rfl⟩ : ∃ n, n0 = n + 1 + 1 := ⟨n0 - 2, by omega⟩
  rw [shrinkMask, if_pos ⟨h63, hbig⟩, hn0, Nat.div_self (by omega), shrinkMask, if_neg (by omega)]

/-- The second half of `remove_dead_nodes` returns only where it does nothing. -/
theorem shrinkTable_ok {v kk : Nat} {s s' : Mgr} (h6 : 6 ≤ kk) (h19 : kk ≤ 19) (hm : (s.tabs v).mask + 1 = 2 ^ kk)
    (e : shrinkTable cfg v s = .ok () s') : s' = s ∧ (63 < (s.tabs v).mask && sparse (s.tabs v)) = false := by
  unfold shrinkTable at e
  rw [M.get_bind_apply] at e
  cases hsp : (63 < (s.tabs v).mask && sparse (s.tabs v)) with
  | false =>
    simp only [hsp] at e
    cases e
    exact ⟨rfl, rfl⟩
  | true =>
    exfalso
    simp only [hsp, if_true] at e
    simp only [Bool.and_eq_true, decide_eq_true_eq] at hsp
    obtain ⟨j, rfl⟩ : ∃ j, kk = j + 6 := ⟨kk - 6, by omega⟩
    have hlt : (2 : Nat) ^ (j + 6) ≤ 2 ^ 19 := Nat.pow_le_pow_right (by omega) h19
    have h2 : (2 : Nat) ^ (j + 6) = 2 ^ j * 64 := by rw [Nat.pow_add]
    have h127 : 127 ≤ (s.tabs v).mask := by
      cases j with
      | zero => simp at hm; omega
      | succ j =>
        have : 0 < 2 ^ j := Nat.two_pow_pos j
        have h3 : (2 : Nat) ^ (j + 1) = 2 ^ j * 2 := Nat.pow_succ ..
        omega
    rw [shrinkMask_sparse h127 (by omega) (by omega) hsp.2] at e
    obtain ⟨c, s1, e1, _⟩ := bind_ok_inv e
    have hp : pageCapFor 1 = none := by decide
    unfold newPage at e1
    rw [hp] at e1
    dsimp only at e1
    rw [if_neg (by omega)] at e1
    obtain ⟨_, s2, _, e3⟩ := bind_ok_inv e1
    cases e3

/-- All tables have the sizes the library uses. -/
def Sized (s : Mgr) : Prop := ∀ v, v < s.nvars → (∃ k, 6 ≤ k ∧ k ≤ 19 ∧ (s.tabs v).mask + 1 = 2 ^ k) ∧ (s.tabs v).mask + 1 ≤ (s.tabs v).cap

theorem Cleans.sized {v : Nat} {s s' : Mgr} (h : Cleans v s s') (hz : Sized s) : Sized s' := by
  intro w hw
  rw [h.frees.nvars] at hw
  by_cases e : w = v
  · subst e; rw [h.thin.mask, h.thin.cap]; exact hz w hw
  · rw [h.other w e]; exact hz w hw

/-- The table of variable `w` is as a returning collection leaves it. -/
def Settled (s : Mgr) (w : Nat) : Prop :=
  (∀ i, i ≤ (s.tabs w).mask → CleanSlot s.cells (s.tabs w).slots i) ∧ (63 < (s.tabs w).mask && sparse (s.tabs w)) = false

theorem removeDeadNodes_settles {v : Nat} {s s' : Mgr} (hl : Layered s) (hz : Sized s) (hv : v < s.nvars)
    (e : removeDeadNodes cfg v s = .ok () s') : Cleans v s s' ∧ Settled s' v := by
  unfold removeDeadNodes at e
  rw [M.get_bind_apply] at e
  obtain ⟨_, s1, e1, e2⟩ := bind_ok_inv e
  obtain ⟨⟨k, k6, k19, hk⟩, hc⟩ := hz v hv
  obtain ⟨h1, h2⟩ := rdOuter_clean _ _ hl hv hk (fun i hi _ => absurd hi (Nat.not_lt_zero i)) e1
  obtain ⟨rfl, h3⟩ := shrinkTable_ok k6 k19 (by rw [h1.thin.mask, hk]) e2
  exact ⟨h1, h2, h3⟩

theorem removeDeadNodes_settled {v : Nat} {s : Mgr} (hz : Sized s) (hv : v < s.nvars) (h : Settled s v) :
    removeDeadNodes cfg v s = .ok () s := by
  unfold removeDeadNodes
  rw [M.get_bind_apply, M.bind_ok (rdOuter_none (hz v hv).2 (fun i p hi hp => h.1 i hi p hp) _ 0 (by omega) (by omega))]
  unfold shrinkTable
  rw [M.get_bind_apply]
  simp only [h.2]
  rfl

/-- The tables a run over some variables leaves. -/
structure CleansAll (s s' : Mgr) : Prop where
  frees : Frees s s'
  thin : ∀ w, Thinner (s.tabs w) (s'.tabs w)
  memo : s'.memo = s.memo

theorem gcVars_settles : ∀ (n i : Nat) {s s' : Mgr}, Layered s → Sized s → i + n = s.nvars → (∀ w, w < i → Settled s w) →
    gcVars cfg n i s = .ok () s' → CleansAll s s' ∧ Layered s' ∧ Sized s' ∧ ∀ w, w < s'.nvars → Settled s' w := by
  intro n
  induction n with
  | zero =>
    intro i s s' hl hz hn hw e
    cases e
    exact ⟨⟨.refl _, fun _ => .refl _, rfl⟩, hl, hz, fun w h => hw w (by omega)⟩
  | succ n ih =>
    intro i s s' hl hz hn hw e
    unfold gcVars at e
    obtain ⟨_, s1, e1, e2⟩ := bind_ok_inv e
    obtain ⟨h1, h2⟩ := removeDeadNodes_settles hl hz (by omega) e1
    have hpre : ∀ w, w < i + 1 → Settled s1 w := by
      intro w hwi
      by_cases ew : w = i
      · subst ew; exact h2
      · have hs := hw w (by omega)
        refine ⟨h1.clean hl (by omega) (by omega) hs.1, ?_⟩
        rw [h1.other w ew]
        exact hs.2
    obtain ⟨g1, g2⟩ := ih (i + 1) (h1.layered hl) (h1.sized hz) (by rw [h1.frees.nvars]; omega) hpre e2
    refine ⟨⟨h1.frees.trans g1.frees, fun w => ?_, g1.memo.trans h1.memo⟩, g2⟩
    by_cases ew : w = i
    · subst ew; exact h1.thin.trans (g1.thin w)
    · have := g1.thin w
      rwa [h1.other w ew] at this

theorem gcVars_settled {s : Mgr} (hz : Sized s) (h : ∀ w, w < s.nvars → Settled s w) : ∀ n i, i + n = s.nvars → gcVars cfg n i s = .ok () s := by
  intro n
  induction n with
  | zero => intro i _; rfl
  | succ n ih =>
    intro i hn
    unfold gcVars
    rw [M.bind_ok (removeDeadNodes_settled hz (by omega) (h i (by omega)))]
    exact ih (i + 1) (by omega)

/-- Emptying the memo cache of useless entries twice is the same as once. -/
theorem purge_twice {s s' : Mgr} (e : purge s = .ok () s') : purge s' = .ok () s' := by
  unfold purge M.modify at e ⊢
  cases e
  dsimp only
  refine congrArg (Res.ok ()) ?_
  refine congrArg (fun m => ({ s with memo := m } : Mgr)) ?_
  refine congrArg (fun m => ({ s.memo with entries := m } : Memo)) ?_
  funext k
  by_cases h : k < s.memo.size ∧ (s.memo.entries k).purgeable s.cells = true
  · simp only [if_pos h]
    split <;> rfl
  · simp only [if_neg h]

/-- A second collection after one that returned does nothing. -/
theorem collectGarbage_settles {s s' : Mgr} (hl : Layered s) (hz : Sized s) (e : collectGarbage cfg s = .ok () s') :
    Layered s' ∧ Sized s' ∧ (∀ w, w < s'.nvars → Settled s' w) ∧ (∀ w, Thinner (s.tabs w) (s'.tabs w)) ∧
      collectGarbage cfg s' = .ok () s' := by
  unfold collectGarbage at e
  rw [M.get_bind_apply] at e
  obtain ⟨_, s1, e1, e2⟩ := bind_ok_inv e
  obtain ⟨g1, g2, g3, g4⟩ := gcVars_settles _ 0 hl hz (by omega) (fun w h => absurd h (Nat.not_lt_zero w)) e1
  have e3 := purge_twice e2
  have h1 : s'.nvars = s1.nvars ∧ s'.tabs = s1.tabs ∧ s'.cells = s1.cells := by cases e2; exact ⟨rfl, rfl, rfl⟩
  obtain ⟨n1, n2, n3⟩ := h1
  have hL : Layered s' := by unfold Layered; rw [n1, n2, n3]; exact g2
  have hZ : Sized s' := by unfold Sized; rw [n1, n2]; exact g3
  have hS : ∀ w, w < s'.nvars → Settled s' w := by unfold Settled; rw [n1, n2, n3]; exact g4
  refine ⟨hL, hZ, hS, by rw [n2]; exact g1.thin, ?_⟩
  unfold collectGarbage
  rw [M.get_bind_apply, M.bind_ok (gcVars_settled hZ hS _ 0 (by omega))]
  exact e3
end
end LBDD
